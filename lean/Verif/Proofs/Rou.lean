import Verif.Proofs.FieldOps
import Verif.Proofs.ScriptHelper

/- Lemmas about `index_to_rou`. -/

set_option linter.unusedSectionVars false
set_option linter.unusedSimpArgs false

namespace TapStark

open Stark (BB4 asBase4 mk4 asBase4_mk4 exists_mk4 mk4_base)

variable {cfg : Cfg} {ops : List Op} {m a : List Elem} {c : List Bool}

/-! ### Splitting the index -/

/-- What the script leaves on the alt stack for bit `i`. -/
def mark (b x i : Nat) : Elem := if x / 2 ^ i % 2 = 1 then num (b - i : Nat) else num 33

theorem mark_mod (b x : Nat) {n i : Nat} (h : i < n) : mark b (x % 2 ^ n) i = mark b x i := by
  unfold mark
  rw [show x % 2 ^ n / 2 ^ i % 2 = x / 2 ^ i % 2 from ?_]
  have e : 2 ^ n = 2 ^ i * 2 ^ (n - i) := by rw [← pow_add]; congr 1; omega
  rw [e, Nat.mod_mul_right_div_self, Nat.mod_mod_of_dvd]
  exact dvd_pow_self 2 (by omega)

theorem run_genBit {b k x : Nat} (hk : k ≤ 30) (_ : b ≤ 31) (hx : x < 2 * 2 ^ k) (h : live c = true) :
    run cfg (genBit k b ++ ops) ⟨num x :: m, a, c⟩ = run cfg ops ⟨num (x % 2 ^ k : Nat) :: m, mark b x k :: a, c⟩ := by
  have hp := pow_le_31 hk
  have h0 : 0 < 2 ^ k := Nat.two_pow_pos k
  unfold genBit mark
  generalize 2 ^ k = p at *
  by_cases hs : p ≤ x
  · have e : decide ((x : Int) > (p - 1 : Nat)) = true := by simp; omega
    have h1 : x / p = 1 := by rw [Nat.div_eq_iff h0]; omega
    have h2 : x % p = x - p := by rw [Nat.mod_eq_sub_mod hs, Nat.mod_eq_of_lt (by omega)]
    sexec [e]
    rw [show (x : Int) - p = (x - p : Nat) by omega, h1, h2]
    rfl
  · have e : decide ((x : Int) > (p - 1 : Nat)) = false := by simp; omega
    have h1 : x / p = 0 := Nat.div_eq_of_lt (by omega)
    have h2 : x % p = x := Nat.mod_eq_of_lt (by omega)
    sexec [e]
    rw [h1, h2]
    rfl

theorem run_genBits {b : Nat} (hb : b ≤ 31) : ∀ {n : Nat} (_ : n ≤ 31) {x : Nat} {a : List Elem}, x < 2 ^ n →
    live c = true →
    run cfg (genBits b n ++ ops) ⟨num x :: m, a, c⟩ =
      run cfg ops ⟨num 0 :: m, (List.range n).map (mark b x) ++ a, c⟩ := by
  intro n
  induction n with
  | zero => intro _ x a hx h; obtain rfl : x = 0 := by simpa using hx
            rfl
  | succ k ih =>
    intro hk x a hx h
    rw [genBits, List.append_assoc, run_genBit (by omega) hb (by rw [Nat.pow_succ] at hx; omega) h,
      ih (by omega) (Nat.mod_lt _ (Nat.two_pow_pos k)) h, List.range_succ, List.map_append]
    rw [List.map_congr_left fun i hi => mark_mod b x (List.mem_range.1 hi)]
    simp

theorem run_genBits_big {b : Nat} (_ : b ≤ 31) : ∀ {n : Nat} (_ : n ≤ 31) {x : Nat} {a : List Elem},
    2 ^ n ≤ x + 1 → x < 2147483648 → live c = true → ∃ a', ∀ ops,
    run cfg (genBits b n ++ ops) ⟨num x :: m, a, c⟩ = run cfg ops ⟨num (x + 1 - 2 ^ n : Nat) :: m, a', c⟩ := by
  intro n
  induction n with
  | zero => intro _ x a hx _ h; exact ⟨a, fun ops => by simp [genBits]⟩
  | succ k ih =>
    intro hk x a hx hx2 h
    have h0 : 0 < 2 ^ k := Nat.two_pow_pos k
    rw [Nat.pow_succ] at hx ⊢
    have step : ∀ ops, run cfg (genBit k b ++ (genBits b k ++ ops)) ⟨num x :: m, a, c⟩ =
        run cfg (genBits b k ++ ops) ⟨num (x - 2 ^ k : Nat) :: m, num (b - k : Nat) :: a, c⟩ := by
      intro ops
      have hp := pow_le_31 (show k ≤ 30 by omega)
      have hx' : 2 ^ k ≤ x := by omega
      unfold genBit
      generalize 2 ^ k = p at *
      have e : decide ((x : Int) > (p - 1 : Nat)) = true := by simp; omega
      sexec [e]
      rw [show (x : Int) - p = (x - p : Nat) by omega]
    obtain ⟨a', e⟩ := ih (by omega) (x := x - 2 ^ k) (a := num (b - k : Nat) :: a) (by omega) (by omega) h
    refine ⟨a', fun ops => ?_⟩
    rw [genBits, List.append_assoc, step, e, show x - 2 ^ k + 1 - 2 ^ k = x + 1 - 2 ^ k * 2 by omega]

theorem run_genBits_neg {b : Nat} (_ : b ≤ 31) : ∀ {n : Nat} (_ : n ≤ 31) {x : Int} {a : List Elem},
    x < 0 → -2147483648 < x → live c = true → ∃ a', ∀ ops,
    run cfg (genBits b n ++ ops) ⟨num x :: m, a, c⟩ = run cfg ops ⟨num x :: m, a', c⟩ := by
  intro n
  induction n with
  | zero => intro _ x a hx _ h; exact ⟨a, fun ops => by simp [genBits]⟩
  | succ k ih =>
    intro hk x a hx hx2 h
    have step : ∀ ops, run cfg (genBit k b ++ (genBits b k ++ ops)) ⟨num x :: m, a, c⟩ =
        run cfg (genBits b k ++ ops) ⟨num x :: m, num 33 :: a, c⟩ := by
      intro ops
      have hp := pow_le_31 (show k ≤ 30 by omega)
      have h0 : 0 < 2 ^ k := Nat.two_pow_pos k
      unfold genBit
      generalize 2 ^ k = p at *
      have e : decide ((x : Int) > (p - 1 : Nat)) = false := by simp; omega
      sexec [e]
    obtain ⟨a', e⟩ := ih (by omega) (a := num 33 :: a) hx hx2 h
    exact ⟨a', fun ops => by rw [genBits, List.append_assoc, step, e]⟩

/-! ### The table of generators -/

theorem run_pushNats : ∀ (l : List Nat) {m : List Elem}, live c = true →
    run cfg (l.reverse.map (fun (v : Nat) => Op.num v) ++ ops) ⟨m, a, c⟩ =
      run cfg ops ⟨l.map (fun (v : Nat) => num v) ++ m, a, c⟩ := by
  intro l
  induction l generalizing ops with
  | nil => intro m h; rfl
  | cons x l ih =>
    intro m h
    rw [List.reverse_cons, List.map_append, List.append_assoc, ih h]
    exact run_num _ h

theorem pushGenTable_eq (F : FieldConsts) :
    pushGenTable F = ((List.range 28).flatMap F.gens).reverse.map (fun (v : Nat) => Op.num v) := by
  unfold pushGenTable
  generalize List.range 28 = r
  induction r with
  | nil => rfl
  | cons x r ih =>
    simp only [List.reverse_cons, List.flatMap_append, List.flatMap_cons, List.flatMap_nil, List.append_nil, ih,
      List.reverse_append, List.map_append]

theorem length_flatMap_const {α β : Type*} {n : Nat} (f : α → List β) (hf : ∀ x, (f x).length = n) :
    ∀ r : List α, (r.flatMap f).length = r.length * n := by
  intro r
  induction r with
  | nil => simp
  | cons x r ih => rw [List.flatMap_cons, List.length_append, hf, ih, List.length_cons]; ring

theorem skipsDead_append {p q : List Op} (hp : SkipsDead cfg p) (hq : SkipsDead cfg q) : SkipsDead cfg (p ++ q) := by
  intro m a c ops h
  rw [List.append_assoc, hp m a c _ h, hq m a c _ h]

theorem skipsDead_nums : ∀ l : List Nat, SkipsDead cfg (l.map fun (v : Nat) => Op.num v) := by
  intro l
  induction l with
  | nil => intro m a c ops h; rfl
  | cons x l ih =>
    have : SkipsDead cfg [Op.num x] := skipsDead_of_balanced rfl
    exact skipsDead_append this ih

theorem skipsDead_emitN {p : List Op} (hp : SkipsDead cfg p) : ∀ n, SkipsDead cfg (emitN n p) := by
  intro n
  induction n with
  | zero => intro m a c ops h; rfl
  | succ n ih => rw [emitN_succ]; exact skipsDead_append hp ih

theorem skipsDead_getGenerator (F : FieldConsts) : SkipsDead cfg (getGenerator F) := by
  unfold getGenerator
  rw [pushGenTable_eq]
  refine skipsDead_append (skipsDead_append (skipsDead_append (skipsDead_append (skipsDead_append ?_
    (skipsDead_nums _)) ?_) ?_) (skipsDead_emitN ?_ _)) ?_
  all_goals first
    | exact skipsDead_of_balanced rfl
    | (split <;> exact skipsDead_of_balanced rfl)

theorem getGenerator_base (k : Nat) (hk : k < 28) : Does cfg (getGenerator bbConsts) [num k] [encB (bbGen k)] := by
  intro m a c ops h
  unfold getGenerator
  rw [if_pos (show bbConsts.size = 1 from rfl), if_pos (show bbConsts.size = 1 from rfl), pushGenTable_eq]
  simp only [List.append_assoc]
  sexec
  rw [run_pushNats _ h]
  have hl := length_flatMap_const (n := 1) bbConsts.gens (fun _ => rfl) (List.range 28)
  have hg : ((List.range 28).flatMap bbConsts.gens)[k]? = some (bbGen k).val := by
    have : (List.range 28).flatMap bbConsts.gens = (List.range 28).map fun i => (bbGen i).val := by
      rw [List.map_eq_flatMap]; rfl
    rw [this, List.getElem?_map, List.getElem?_range hk]; rfl
  generalize (List.range 28).flatMap bbConsts.gens = t at *
  rw [run_fromAlt _ h]
  rw [run_pick_some (k := k) (x := encB (bbGen k)) h rfl ?_ (by omega)]
  · rw [run_toAlt _ h]
    rw [run_u31drops (l := t.map fun (v : Nat) => num v) (by rw [List.length_map, hl]; rfl) h]
    exact run_fromAlt _ h
  · rw [List.getElem?_append_left, List.getElem?_map, hg]
    · rfl
    · rw [List.length_map, hl]; simpa using hk

theorem getGenerator_ext (k : Nat) (hk : k < 28) :
    Does cfg (getGenerator bb4Consts) [num k] (encE (algebraMap BB BB4 (bbGen k))) := by
  intro m a c ops h
  unfold getGenerator
  rw [if_neg (by decide), if_neg (by decide), pushGenTable_eq]
  simp only [List.append_assoc]
  sexec
  rw [run_pushNats _ h]
  have hl := length_flatMap_const (n := 4) bb4Consts.gens (fun _ => rfl)
  have hsplit : (List.range 28).flatMap bb4Consts.gens =
      (List.range k).flatMap bb4Consts.gens ++ ((bbGen k).val :: 0 :: 0 :: 0 ::
        ((List.range (27 - k)).map (fun i => k + 1 + i)).flatMap bb4Consts.gens) := by
    have e : 28 = k + (27 - k + 1) := by omega
    rw [e, List.range_add, List.flatMap_append, List.range_succ_eq_map]
    congr 1
    simp only [List.map_cons, List.flatMap_cons, List.map_map]
    show _ ++ _ = [(bbGen k).val, 0, 0, 0] ++ _
    congr 2
    apply List.map_congr_left
    intro i _
    simp only [Function.comp]; omega
  rw [run_fromAlt _ h]
  have hm : run cfg (op4mul ++ (op4pick ++ (op4toAlt ++ (emitN (28 * bb4Consts.size) [.drop] ++ (op4fromAlt ++ ops)))))
      ⟨num (k : Nat) :: (((List.range 28).flatMap bb4Consts.gens).map (fun (v : Nat) => num v) ++ m), a, c⟩ =
      run cfg (op4pick ++ (op4toAlt ++ (emitN (28 * bb4Consts.size) [.drop] ++ (op4fromAlt ++ ops))))
      ⟨num (k * 4 : Nat) :: (((List.range 28).flatMap bb4Consts.gens).map (fun (v : Nat) => num v) ++ m), a, c⟩ := by
    unfold op4mul
    sexec
    rw [show ((k : Int) + k + (k + k)) = (k * 4 : Nat) by omega]
  refine hm.trans ?_
  have hs2 : ((List.range 28).flatMap bb4Consts.gens).map (fun (v : Nat) => num v) =
      ((List.range k).flatMap bb4Consts.gens).map (fun (v : Nat) => num v) ++ (encB (bbGen k) :: num 0 :: num 0 ::
        num 0 :: (((List.range (27 - k)).map (fun i => k + 1 + i)).flatMap bb4Consts.gens).map
          (fun (v : Nat) => num v)) := by
    rw [hsplit, List.map_append]; rfl
  have hlen : (((List.range 28).flatMap bb4Consts.gens).map (fun (v : Nat) => num v)).length = 28 * bb4Consts.size := by
    rw [List.length_map, hl, List.length_range]; rfl
  rw [hs2, List.append_assoc]
  rw [List.cons_append, List.cons_append, List.cons_append, List.cons_append]
  rw [run_op4pick _ _ _ _ _ _ h (by rw [List.length_map, hl, List.length_range]) (by omega), run_op4toAlt h]
  rw [hs2] at hlen
  have hd := run_u31drops (cfg := cfg) (ops := op4fromAlt ++ ops) (m := m)
    (a := num 0 :: num 0 :: num 0 :: encB (bbGen k) :: a) (c := c) hlen h
  rw [List.append_assoc, List.cons_append, List.cons_append, List.cons_append, List.cons_append] at hd
  refine hd.trans ?_
  rw [run_op4fromAlt h, mk4_base, encE_mk4]
  rfl

/-! ### The product -/

section Product

variable {K : Type} [Monoid K] (enc : K → List Elem) (g : Nat → K)

/-- One factor of the product. -/
def rouFactor (b x : Nat) (acc : K) (i : Nat) : K := if x / 2 ^ i % 2 = 1 then acc * g (b - i) else acc

theorem run_rouStep {L : U31Lib} {F : FieldConsts} (hg : ∀ k : Nat, k < 28 → Does cfg (getGenerator F) [num k] (enc (g k)))
    (hmul : ∀ x y, Does cfg (if F.size = 1 then L.mul else L.extMul) (enc y ++ enc x) (enc (x * y)))
    (hdead : SkipsDead cfg (if F.size = 1 then L.mul else L.extMul)) {b x i : Nat} {acc : K} (hb : b ≤ 27)
    (h : live c = true) :
    run cfg (rouStep L F ++ ops) ⟨enc acc ++ m, mark b x i :: a, c⟩ =
      run cfg ops ⟨enc (rouFactor g b x acc i) ++ m, a, c⟩ := by
  have hl : live (true :: c) = true := h
  have hf : live (false :: c) = false := rfl
  unfold rouStep rouFactor
  generalize (if F.size = 1 then L.mul else L.extMul) = mul at *
  simp only [List.append_assoc]
  by_cases hbit : x / 2 ^ i % 2 = 1
  · have e : decide (num (33 : Int) = num ((b - i : Nat) : Int)) = false := by
      rw [decide_eq_false_iff_not, num_inj]; omega
    rw [if_pos hbit, mark, if_pos hbit]
    sexec [e]
    have h1 := hg (b - i) (by omega) (enc acc ++ m) a (true :: c) (mul ++ .opendif :: ops) hl
    refine h1.trans ?_
    have h2 := hmul acc (g (b - i)) m a (true :: c) (.opendif :: ops) hl
    rw [List.append_assoc] at h2
    refine h2.trans ?_
    sexec
  · rw [if_neg hbit, mark, if_neg hbit]
    sexec [decide_true]
    rw [skipsDead_getGenerator F _ _ _ _ hf, hdead _ _ _ _ hf]
    sexec

theorem run_rouSteps {L : U31Lib} {F : FieldConsts} (hg : ∀ k : Nat, k < 28 → Does cfg (getGenerator F) [num k] (enc (g k)))
    (hmul : ∀ x y, Does cfg (if F.size = 1 then L.mul else L.extMul) (enc y ++ enc x) (enc (x * y)))
    (hdead : SkipsDead cfg (if F.size = 1 then L.mul else L.extMul)) {b x : Nat} (hb : b ≤ 27) (h : live c = true) :
    ∀ (l : List Nat) (acc : K),
    run cfg (emitN l.length (rouStep L F) ++ ops) ⟨enc acc ++ m, l.map (mark b x) ++ a, c⟩ =
      run cfg ops ⟨enc (l.foldl (rouFactor g b x) acc) ++ m, a, c⟩ := by
  intro l
  induction l with
  | nil => intro acc; rfl
  | cons i l ih =>
    intro acc
    rw [List.length_cons, emitN_succ, List.append_assoc, List.map_cons, List.cons_append,
      run_rouStep enc g hg hmul hdead hb h, ih, List.foldl_cons]

theorem foldl_rouFactor {b x : Nat} (hgen : ∀ i ≤ b, g (b - i) = g b ^ 2 ^ i) : ∀ n ≤ b,
    (List.range n).foldl (rouFactor g b x) 1 = g b ^ (x % 2 ^ n) := by
  intro n
  induction n with
  | zero => intro _; simp [Nat.mod_one]
  | succ n ih =>
    intro hn
    rw [List.range_succ, List.foldl_append, ih (by omega), List.foldl_cons, List.foldl_nil, rouFactor,
      pow_succ 2 n, Nat.mod_mul]
    rcases Nat.mod_two_eq_zero_or_one (x / 2 ^ n) with e | e
    · rw [e, if_neg (by decide), Nat.mul_zero, Nat.add_zero]
    · rw [e, if_pos rfl, hgen n (by omega), Nat.mul_one, pow_add]

/-- The whole script, for an index in range. -/
theorem does_indexToRou {L : U31Lib} {F : FieldConsts}
    (hg : ∀ k : Nat, k < 28 → Does cfg (getGenerator F) [num k] (enc (g k)))
    (hmul : ∀ x y, Does cfg (if F.size = 1 then L.mul else L.extMul) (enc y ++ enc x) (enc (x * y)))
    (hdead : SkipsDead cfg (if F.size = 1 then L.mul else L.extMul))
    (hone : F.one.map (fun (v : Nat) => num v) = enc 1) {b x : Nat} (hb : b ≤ 27)
    (hgen : ∀ i ≤ b, g (b - i) = g b ^ 2 ^ i) (hx : x < 2 ^ b) :
    ∃ p, indexToRou L F b = some p ∧ Does cfg p [num x] (enc (g b ^ x)) := by
  refine ⟨_, by rw [indexToRou, if_neg (by omega)], ?_⟩
  intro m a c ops h
  simp only [List.append_assoc]
  rw [List.singleton_append (l := m), run_genBits (by omega) (by omega) hx h]
  sexec
  rw [run_equalverify _ _ h, if_pos rfl, run_pushNats _ h, hone]
  have := run_rouSteps (cfg := cfg) (ops := ops) (m := m) (a := a) enc g hg hmul hdead (x := x) hb h (List.range b) 1
  rw [List.length_range] at this
  rw [this, foldl_rouFactor g hgen b (le_refl b), Nat.mod_eq_of_lt hx]

end Product

/-- The whole script, for an index out of range. -/
theorem fails_indexToRou {L : U31Lib} {F : FieldConsts} {b : Nat} (hb : b ≤ 27) {x : Int}
    (hx : x < 0 ∨ 2 ^ b ≤ x) (h1 : -2147483648 < x) (h2 : x < 2147483648) :
    ∃ p, indexToRou L F b = some p ∧ Fails cfg p [num x] := by
  refine ⟨_, by rw [indexToRou, if_neg (by omega)], ?_⟩
  intro m a c ops h
  simp only [List.append_assoc]
  rw [List.singleton_append (l := m)]
  have key : ∃ (y : Int) (a' : List Elem), y ≠ 0 ∧ ∀ ops, run cfg (genBits b b ++ ops) ⟨num x :: m, a, c⟩ =
      run cfg ops ⟨num y :: m, a', c⟩ := by
    rcases hx with hx | hx
    · obtain ⟨a', e⟩ := run_genBits_neg (cfg := cfg) (m := m) (a := a) (show b ≤ 31 by omega) (n := b) (by omega) hx h1 h
      exact ⟨x, a', by omega, e⟩
    · obtain ⟨n, rfl⟩ : ∃ n : Nat, x = n := ⟨x.toNat, by have := pow_pos (show (0 : Int) < 2 by decide) b; omega⟩
      have hn : 2 ^ b ≤ n := by exact_mod_cast hx
      obtain ⟨a', e⟩ := run_genBits_big (cfg := cfg) (m := m) (a := a) (show b ≤ 31 by omega) (n := b) (x := n) (by omega)
        (by omega) (by omega) h
      exact ⟨_, a', by omega, e⟩
  obtain ⟨y, a', hy, e⟩ := key
  rw [e]
  sexec
  rw [run_equalverify _ _ h, if_neg (by rw [num_inj]; omega)]

end TapStark
