import Verif.Proofs.Express
import Verif.Props.FieldOps
import Verif.Props.Blake3

/- Each operation of the expression language: its generator does what its meaning says. -/

set_option linter.unusedSectionVars false
set_option linter.unusedSimpArgs false

namespace TapStark

open Stark (BB4 asBase4 mk4 exists_mk4)

variable {cfg : Cfg} {L : U31Lib} {ops : List Op} {m a : List Elem} {c : List Bool}

/-! ### Values -/

theorem Val.Has.length {v : Val} {k : Kind} (h : v.Has k) : v.enc.length = k.size := by
  cases v with
  | nat n => cases k <;> first | rfl | cases h
  | ext x => cases k <;> first | exact FVal.length_enc (.ext x) | cases h

theorem Val.enc_ofF (x : FVal) : (Val.ofF x).enc = x.enc := by cases x <;> rfl

theorem Val.Has.field {v : Val} {k : Kind} (h : v.Has k) (hk : k.IsField) : v.enc = v.toF.enc ∧ v.toF.size = k.size := by
  cases v with
  | nat n =>
    rcases hk with rfl | ⟨B, hB, rfl⟩
    · cases h
    · refine ⟨?_, rfl⟩
      show [num (n : Int)] = [encB (n : BB)]
      unfold encB
      rw [ZMod.val_natCast, Nat.mod_eq_of_lt (Nat.lt_of_lt_of_le h.1 hB)]
  | ext x => exact ⟨rfl, by cases k <;> first | rfl | cases h⟩

theorem FVal.has {x : FVal} {k : Kind} (hk : k = .ext ∨ k = .base) (h : x.size = k.size) : (Val.ofF x).Has k := by
  rcases hk with rfl | rfl <;> cases x <;>
    first | trivial | exact ⟨val_lt' _, Nat.lt_trans (val_lt' _) (by decide)⟩ | cases h

theorem Val.Has.nat {v : Val} {B : Nat} (h : v.Has (.nat B)) : ∃ n, v = .nat n ∧ n < B ∧ n < 2 ^ 31 := by
  cases v with
  | nat n => exact ⟨n, rfl, h⟩
  | ext x => cases h

theorem Val.Has.ext {v : Val} (h : v.Has .ext) : ∃ x : BB4, v = .ext x := by
  cases v with
  | nat n => cases h
  | ext x => exact ⟨x, rfl⟩

namespace FVal

theorem lift2_size (f : BB → BB → BB) (g : BB4 → BB4 → BB4) (x y : FVal) :
    (lift2 f g x y).size = max x.size y.size := by
  cases x <;> cases y <;> rfl

theorem lift1_size (f : BB → BB) (g : BB4 → BB4) (x : FVal) : (lift1 f g x).size = x.size := by
  cases x <;> rfl

theorem add_val (x y : FVal) : (x.add y).val = x.val + y.val := by
  cases x <;> cases y <;> first | rfl | exact map_add _ _ _
theorem sub_val (x y : FVal) : (x.sub y).val = x.val - y.val := by
  cases x <;> cases y <;> first | rfl | exact map_sub _ _ _
theorem mul_val (x y : FVal) : (x.mul y).val = x.val * y.val := by
  cases x <;> cases y <;> first | rfl | exact map_mul _ _ _
theorem neg_val (x : FVal) : x.neg.val = -x.val := by
  cases x <;> first | rfl | exact map_neg _ _
theorem double_val (x : FVal) : x.double.val = 2 * x.val := by
  cases x with
  | base x => show algebraMap BB BB4 (2 * x) = 2 * algebraMap BB BB4 x; rw [map_mul, map_ofNat]
  | ext x => rfl
theorem pow_val (n : Nat) (x : FVal) : (x.pow n).val = x.val ^ n := by
  cases x <;> first | rfl | exact map_pow _ _ _

end FVal

theorem Kind.join_field {k j : Kind} : k.join j = .ext ∨ k.join j = .base := by
  unfold Kind.join; split
  · exact .inl rfl
  · exact .inr rfl

theorem Kind.join_size {k j : Kind} : (k.join j).size = max k.size j.size := by
  cases k <;> cases j <;> rfl

theorem Kind.join_self_size {k : Kind} : (k.join k).size = k.size := by
  cases k <;> rfl

/-! ### What has to be shown of an operation -/

/-- The elements of operands on the stack, the last operand on top. -/
noncomputable def stackVals (args : List (List Val)) : List Elem := (args.reverse.flatten.map Val.enc).flatten

/-- The script `p` computes `d`. -/
def Computes (cfg : Cfg) (p : List Op) (s : Nat) (r : List Kind) (args : List (List Val)) (d : Option (List Val)) : Prop :=
  (∀ outs, d = some outs → List.Forall₂ Val.Has outs r ∧ (∀ o ∈ outs, o.enc.length = s) ∧
    Does cfg p (stackVals args) ((outs.map Val.enc).flatten)) ∧
  (d = none → Fails cfg p (stackVals args))

/-- The generator of an operation emits a script that computes its meaning. -/
def ScriptOk (cfg : Cfg) (L : U31Lib) (env : Variable → Val) (opc : Opc) (as : List (List Kind)) (r : List Kind)
    (sizes : List Nat) : Prop :=
  ∃ p s, opc.emit L sizes = some (.custom p ((as.map List.length).sum) r.length s) ∧ s ≤ 4 ∧
    ∀ args, List.Forall₂ (List.Forall₂ Val.Has) args as → Computes cfg p s r args (opc.denote env args)

/-- Declared sizes of operands. -/
def SizesOk (opc : Opc) (as : List (List Kind)) (sizes : List Nat) : Prop :=
  List.Forall₂ (fun ks n => ∀ k, ks = [k] → n = k.size) as sizes ∧
  ((opc = .sampleBase ∨ ∃ f n, opc = .lookup f n) → ∀ n ∈ sizes, n = 1)

theorem computes_some {p : List Op} {s : Nat} {r : List Kind} {args : List (List Val)} {d : Option (List Val)}
    {outs : List Val} (hd : d = some outs) (h1 : List.Forall₂ Val.Has outs r) (h2 : ∀ o ∈ outs, o.enc.length = s)
    (h3 : Does cfg p (stackVals args) ((outs.map Val.enc).flatten)) : Computes cfg p s r args d := by
  subst hd
  refine ⟨fun o e => ?_, fun e => (by cases e)⟩
  cases e
  exact ⟨h1, h2, h3⟩

theorem computes_none {p : List Op} {s : Nat} {r : List Kind} {args : List (List Val)} {d : Option (List Val)}
    (hd : d = none) (h : Fails cfg p (stackVals args)) : Computes cfg p s r args d := by
  subst hd
  exact ⟨fun o e => (by cases e), fun _ => h⟩

/-- One operand, one result. -/
theorem computes_one {p : List Op} {k : Kind} {args : List (List Val)} {d : Option (List Val)}
    {v : Val} (hd : d = some [v]) (h1 : v.Has k) (h3 : Does cfg p (stackVals args) v.enc) :
    Computes cfg p k.size [k] args d := by
  apply computes_some hd (.cons h1 .nil)
  · intro o ho
    rw [List.mem_singleton] at ho
    subst ho
    exact h1.length
  · simpa using h3

theorem forall₂_one {R : List Val → List Kind → Prop} {args : List (List Val)} {x : List Kind}
    (h : List.Forall₂ R args [x]) : ∃ v, args = [v] ∧ R v x := by
  cases h with
  | cons h1 h2 => cases h2; exact ⟨_, rfl, h1⟩

theorem forall₂_two {R : List Val → List Kind → Prop} {args : List (List Val)} {x y : List Kind}
    (h : List.Forall₂ R args [x, y]) : ∃ v w, args = [v, w] ∧ R v x ∧ R w y := by
  cases h with
  | cons h1 h2 =>
    obtain ⟨w, rfl, h3⟩ := forall₂_one h2
    exact ⟨_, w, rfl, h1, h3⟩

theorem has_one {v : List Val} {k : Kind} (h : List.Forall₂ Val.Has v [k]) : ∃ x, v = [x] ∧ x.Has k := by
  cases h with
  | cons h1 h2 => cases h2; exact ⟨_, rfl, h1⟩

theorem args_one {args : List (List Val)} {k : Kind} (h : List.Forall₂ (List.Forall₂ Val.Has) args [[k]]) :
    ∃ x, args = [[x]] ∧ x.Has k := by
  obtain ⟨v, rfl, h⟩ := forall₂_one h
  obtain ⟨x, rfl, h'⟩ := has_one ‹List.Forall₂ Val.Has v [k]›
  exact ⟨x, rfl, h'⟩

theorem args_two {args : List (List Val)} {k j : Kind} (h : List.Forall₂ (List.Forall₂ Val.Has) args [[k], [j]]) :
    ∃ x y, args = [[x], [y]] ∧ x.Has k ∧ y.Has j := by
  obtain ⟨v, w, rfl, h1, h2⟩ := forall₂_two h
  obtain ⟨x, rfl, h3⟩ := has_one h1
  obtain ⟨y, rfl, h4⟩ := has_one h2
  exact ⟨x, y, rfl, h3, h4⟩

theorem sizes_one {opc : Opc} {k : Kind} {sizes : List Nat} (h : SizesOk opc [[k]] sizes) : sizes = [k.size] := by
  cases h.1 with
  | cons h1 h2 => cases h2; rw [h1 k rfl]

theorem sizes_two {opc : Opc} {k j : Kind} {sizes : List Nat} (h : SizesOk opc [[k], [j]] sizes) :
    sizes = [k.size, j.size] := by
  cases h.1 with
  | cons h1 h2 =>
    cases h2 with
    | cons h2 h3 => cases h3; rw [h1 k rfl, h2 j rfl]

theorem sizes_single {opc : Opc} {ks : List Kind} {sizes : List Nat} (h : SizesOk opc [ks] sizes) : ∃ n, sizes = [n] := by
  cases h.1 with
  | cons h1 h2 => cases h2; exact ⟨_, rfl⟩

theorem Kind.size_le (k : Kind) : k.size ≤ 4 := by cases k <;> simp [Kind.size]

theorem stackVals_one (x : Val) : stackVals [[x]] = x.enc := by simp [stackVals]
theorem stackVals_two (x y : Val) : stackVals [[x], [y]] = y.enc ++ x.enc := by simp [stackVals]

/-! ### Arithmetic -/

variable {env : Variable → Val} {as : List (List Kind)} {r : List Kind} {sizes : List Nat} {K : Variable → Kind}

theorem binary_ok {opc : Opc} {k j : Kind} (hk : k.IsField) (hj : j.IsField) (hs : SizesOk opc [[k], [j]] sizes)
    (scr : Nat → Nat → List Op) (op : FVal → FVal → FVal)
    (hem : ∀ x y, opc.emit L [x, y] = some (.custom (scr x y) 2 1 (max x y)))
    (hden : ∀ x y, opc.denote env [[x], [y]] = some [.ofF (op x.toF y.toF)])
    (hsz : ∀ x y : FVal, (op x y).size = max x.size y.size)
    (hdo : ∀ x y : FVal, Does cfg (scr x.size y.size) (y.enc ++ x.enc) (op x y).enc) :
    ScriptOk cfg L env opc [[k], [j]] [k.join j] sizes := by
  rw [sizes_two hs]
  refine ⟨_, _, hem _ _, ?_, fun args ha => ?_⟩
  · have := k.size_le; have := j.size_le; omega
  obtain ⟨x, y, rfl, hx, hy⟩ := args_two ha
  obtain ⟨e1, ex⟩ := hx.field hk
  obtain ⟨e2, ey⟩ := hy.field hj
  rw [← Kind.join_size]
  refine computes_one (hden x y) (FVal.has Kind.join_field ?_) ?_
  · rw [hsz, ex, ey, Kind.join_size]
  · rw [stackVals_two, ← ex, ← ey, e1, e2, Val.enc_ofF]
    exact hdo x.toF y.toF

theorem unary_ok {opc : Opc} {k : Kind} (hk : k.IsField) (hs : SizesOk opc [[k]] sizes)
    (scr : List Op) (op : FVal → FVal)
    (hem : opc.emit L [k.size] = some (.custom scr 1 1 k.size))
    (hden : ∀ x, opc.denote env [[x]] = some [.ofF (op x.toF)])
    (hsz : ∀ x : FVal, (op x).size = x.size)
    (hdo : ∀ x : FVal, x.size = k.size → Does cfg scr x.enc (op x).enc) :
    ScriptOk cfg L env opc [[k]] [k.join k] sizes := by
  rw [sizes_one hs]
  refine ⟨_, _, hem, k.size_le, fun args ha => ?_⟩
  obtain ⟨x, rfl, hx⟩ := args_one ha
  obtain ⟨e1, ex⟩ := hx.field hk
  rw [← Kind.join_self_size]
  refine computes_one (hden x) (FVal.has Kind.join_field ?_) ?_
  · rw [hsz, ex, Kind.join_self_size]
  · rw [stackVals_one, e1, Val.enc_ofF]
    exact hdo x.toF ex

theorem add_ok (hL : L.Ok cfg) (ht : Opc.add.Types K as r) (hs : SizesOk .add as sizes) :
    ScriptOk cfg L env .add as r sizes := by
  obtain ⟨k, j, rfl, hk, hj, rfl⟩ := ht
  refine binary_ok hk hj hs (addScript L) FVal.add (fun _ _ => rfl) (fun _ _ => rfl) (FVal.lift2_size _ _) ?_
  intro x y
  obtain ⟨z, h1, h2, h3⟩ := C55_add hL x y
  have ez : z = x.add y :=
    FVal.ext_iff' (h1.trans (FVal.lift2_size _ _ x y).symm) (h2.trans (FVal.add_val x y).symm)
  rw [← ez]
  exact h3

theorem sub_ok (hL : L.Ok cfg) (ht : Opc.sub.Types K as r) (hs : SizesOk .sub as sizes) :
    ScriptOk cfg L env .sub as r sizes := by
  obtain ⟨k, j, rfl, hk, hj, rfl⟩ := ht
  refine binary_ok hk hj hs (subScript L) FVal.sub (fun _ _ => rfl) (fun _ _ => rfl) (FVal.lift2_size _ _) ?_
  intro x y
  obtain ⟨z, h1, h2, h3⟩ := C55_sub hL x y
  have ez : z = x.sub y :=
    FVal.ext_iff' (h1.trans (FVal.lift2_size _ _ x y).symm) (h2.trans (FVal.sub_val x y).symm)
  rw [← ez]
  exact h3

theorem mul_ok (hL : L.Ok cfg) (ht : Opc.mul.Types K as r) (hs : SizesOk .mul as sizes) :
    ScriptOk cfg L env .mul as r sizes := by
  obtain ⟨k, j, rfl, hk, hj, rfl⟩ := ht
  refine binary_ok hk hj hs (mulScript L) FVal.mul (fun _ _ => rfl) (fun _ _ => rfl) (FVal.lift2_size _ _) ?_
  intro x y
  obtain ⟨z, h1, h2, h3⟩ := C55_mul hL x y
  have ez : z = x.mul y :=
    FVal.ext_iff' (h1.trans (FVal.lift2_size _ _ x y).symm) (h2.trans (FVal.mul_val x y).symm)
  rw [← ez]
  exact h3

theorem neg_ok (hL : L.Ok cfg) (ht : Opc.neg.Types K as r) (hs : SizesOk .neg as sizes) :
    ScriptOk cfg L env .neg as r sizes := by
  obtain ⟨k, rfl, hk, rfl⟩ := ht
  refine unary_ok hk hs _ FVal.neg rfl (fun _ => rfl) (FVal.lift1_size _ _) fun x ex => ?_
  obtain ⟨z, h1, h2, h3⟩ := (C76_unary hL x).1
  have ez : z = x.neg := FVal.ext_iff' (h1.trans (FVal.lift1_size _ _ x).symm) (h2.trans (FVal.neg_val x).symm)
  rw [← ez, ← ex]
  exact h3

theorem double_ok (hL : L.Ok cfg) (ht : Opc.double.Types K as r) (hs : SizesOk .double as sizes) :
    ScriptOk cfg L env .double as r sizes := by
  obtain ⟨k, rfl, hk, rfl⟩ := ht
  refine unary_ok hk hs _ FVal.double rfl (fun _ => rfl) (FVal.lift1_size _ _) fun x ex => ?_
  obtain ⟨z, h1, h2, h3⟩ := (C76_unary hL x).2.1
  have ez : z = x.double := FVal.ext_iff' (h1.trans (FVal.lift1_size _ _ x).symm) (h2.trans (FVal.double_val x).symm)
  rw [← ez, ← ex]
  exact h3

theorem square_ok (hL : L.Ok cfg) (ht : Opc.square.Types K as r) (hs : SizesOk .square as sizes) :
    ScriptOk cfg L env .square as r sizes := by
  obtain ⟨k, rfl, hk, rfl⟩ := ht
  refine unary_ok hk hs _ (FVal.pow 2) rfl (fun _ => rfl) (FVal.lift1_size _ _) fun x ex => ?_
  obtain ⟨z, h1, h2, h3⟩ := (C76_unary hL x).2.2
  have ez : z = x.pow 2 := FVal.ext_iff' (h1.trans (FVal.lift1_size _ _ x).symm) (h2.trans (FVal.pow_val 2 x).symm)
  rw [← ez, ← ex]
  exact h3

theorem expConst_ok (hL : L.Ok cfg) {fs power : Nat} (ht : (Opc.expConst fs power).Types K as r)
    (hs : SizesOk (.expConst fs power) as sizes) : ScriptOk cfg L env (.expConst fs power) as r sizes := by
  obtain ⟨k, rfl, hk, rfl, ⟨n, rfl⟩, rfl⟩ := ht
  have key : ∀ x : FVal, x.size = k.size → ∃ p, expConstScript L k.size (2 ^ n) = some p ∧
      Does cfg p x.enc (x.pow (2 ^ n)).enc := by
    intro x ex
    obtain ⟨p, z, hp, h1, h2, h3⟩ := (C76_power hL x (2 ^ n)).1 n rfl
    refine ⟨p, ex ▸ hp, ?_⟩
    have ez : z = x.pow (2 ^ n) :=
      FVal.ext_iff' (h1.trans (FVal.lift1_size _ _ x).symm) (h2.trans (FVal.pow_val (2 ^ n) x).symm)
    rw [← ez]
    exact h3
  have hex : ∃ p, expConstScript L k.size (2 ^ n) = some p := by
    rcases hk with rfl | ⟨B, _, rfl⟩
    · obtain ⟨p, hp, _⟩ := key (.ext 0) rfl; exact ⟨p, hp⟩
    · obtain ⟨p, hp, _⟩ := key (.base 0) rfl; exact ⟨p, hp⟩
  obtain ⟨p, hp⟩ := hex
  refine unary_ok hk hs p (FVal.pow (2 ^ n)) ?_ (fun _ => rfl) (FVal.lift1_size _ _) fun x ex => ?_
  · simp only [Opc.emit, hp]; rfl
  · obtain ⟨q, hq, h⟩ := key x ex
    rw [hp] at hq
    cases hq
    exact h

/-! ### Comparisons -/

theorem encNat_inj {x y : Nat} (h : num (x : Int) = num (y : Int)) : x = y := by
  rw [num_inj] at h
  exact_mod_cast h

theorem equal_ok (hL : L.Ok cfg) (ht : Opc.equal.Types K as r) (hs : SizesOk .equal as sizes) :
    ScriptOk cfg L env .equal as r sizes := by
  obtain ⟨k, j, rfl, hkj, rfl⟩ := ht
  have e : k.size = j.size := by
    rcases hkj with ⟨rfl, rfl⟩ | ⟨⟨B, rfl⟩, B', rfl⟩ <;> rfl
  rw [sizes_two hs]
  refine ⟨_, 1, by rw [Opc.emit, if_pos e]; rfl, by decide, fun args ha => ?_⟩
  obtain ⟨x, y, rfl, hx, hy⟩ := args_two ha
  rcases hkj with ⟨rfl, rfl⟩ | ⟨⟨B, rfl⟩, B', rfl⟩
  · obtain ⟨x, rfl⟩ := hx.ext
    obtain ⟨y, rfl⟩ := hy.ext
    by_cases hxy : x = y
    · subst hxy
      refine computes_one (k := .nat 2) (v := .nat 1) ?_ ⟨by decide, by decide⟩ ?_
      · simp only [Opc.denote, if_pos]
      · rw [stackVals_two]
        exact (C76_equal hL).2.1 x
    · refine computes_none ?_ ?_
      · simp only [Opc.denote, if_neg hxy]
      · rw [stackVals_two]
        exact (C76_equal hL).2.2 x y hxy
  · obtain ⟨x, rfl, _⟩ := hx.nat
    obtain ⟨y, rfl, _⟩ := hy.nat
    refine computes_one (k := .nat 2) (v := .nat (if x = y then 1 else 0)) ?_ ?_ ?_
    · simp only [Opc.denote]
    · split <;> exact ⟨by decide, by decide⟩
    · rw [stackVals_two]
      intro m a c ops h
      show run cfg (.equal :: ops) ⟨num y :: num x :: m, a, c⟩ = _
      rw [run_equal _ _ h]
      by_cases e : x = y
      · subst e; simp only [if_true]; simp; rfl
      · have h1 : num (y : Int) ≠ num (x : Int) := fun h => e (encNat_inj h).symm
        rw [if_neg e]
        simp [h1]
        rfl

theorem equalVerify_ok (hL : L.Ok cfg) (ht : Opc.equalVerify.Types K as r) (hs : SizesOk .equalVerify as sizes) :
    ScriptOk cfg L env .equalVerify as r sizes := by
  obtain ⟨k, j, rfl, hkj, rfl⟩ := ht
  have e : k.size = j.size := by
    rcases hkj with ⟨rfl, rfl⟩ | ⟨⟨B, rfl⟩, B', rfl⟩ <;> rfl
  rw [sizes_two hs]
  refine ⟨_, 0, by rw [Opc.emit, if_pos e]; rfl, by decide, fun args ha => ?_⟩
  obtain ⟨x, y, rfl, hx, hy⟩ := args_two ha
  have fin : (x = y → Does cfg (equalVerifyScript L k.size) (y.enc ++ x.enc) []) →
      (x ≠ y → Fails cfg (equalVerifyScript L k.size) (y.enc ++ x.enc)) →
      Computes cfg (equalVerifyScript L k.size) 0 [] [[x], [y]] (Opc.equalVerify.denote env [[x], [y]]) := by
    intro h1 h2
    by_cases e : x = y
    · refine computes_some (outs := []) ?_ .nil (fun _ h => by cases h) ?_
      · simp only [Opc.denote, if_pos e]
      · rw [stackVals_two]; exact h1 e
    · refine computes_none ?_ ?_
      · simp only [Opc.denote, if_neg e]
      · rw [stackVals_two]; exact h2 e
  apply fin
  · rcases hkj with ⟨rfl, rfl⟩ | ⟨⟨B, rfl⟩, B', rfl⟩
    · obtain ⟨x, rfl⟩ := hx.ext
      obtain ⟨y, rfl⟩ := hy.ext
      intro h
      exact (C76_equalverify hL (.ext x) (.ext y) rfl).1 (by injection h with h; rw [h])
    · obtain ⟨x, rfl, _⟩ := hx.nat
      obtain ⟨y, rfl, _⟩ := hy.nat
      intro h m a c ops hl
      cases h
      show run cfg (.equalverify :: ops) ⟨num x :: num x :: m, a, c⟩ = _
      rw [run_equalverify _ _ hl, if_pos rfl]
      rfl
  · rcases hkj with ⟨rfl, rfl⟩ | ⟨⟨B, rfl⟩, B', rfl⟩
    · obtain ⟨x, rfl⟩ := hx.ext
      obtain ⟨y, rfl⟩ := hy.ext
      intro h
      exact (C76_equalverify hL (.ext x) (.ext y) rfl).2 fun e => h (by injection e with e; rw [e])
    · obtain ⟨x, rfl, _⟩ := hx.nat
      obtain ⟨y, rfl, _⟩ := hy.nat
      intro h m a c ops hl
      show run cfg (.equalverify :: ops) ⟨num y :: num x :: m, a, c⟩ = _
      rw [run_equalverify _ _ hl, if_neg fun e => h (by rw [encNat_inj e])]

/-! ### Numbers -/

theorem numToField_ok (hL : L.Ok cfg) (ht : Opc.numToField.Types K as r) (hs : SizesOk .numToField as sizes) :
    ScriptOk cfg L env .numToField as r sizes := by
  obtain ⟨B, rfl, rfl⟩ := ht
  rw [sizes_one hs]
  refine ⟨_, Kind.base.size, rfl, by decide, fun args ha => ?_⟩
  obtain ⟨x, rfl, hx⟩ := args_one ha
  obtain ⟨x, rfl, _, hx⟩ := hx.nat
  have hlt : x % bbP < bbP := Nat.mod_lt _ (by decide)
  refine computes_one (v := .nat (x % bbP)) rfl ⟨hlt, Nat.lt_trans hlt (by decide)⟩ ?_
  rw [stackVals_one]
  have := (C76_num_to_field hL x hx).1
  have e : encB (x : BB) = num (x % bbP : Nat) := by unfold encB; rw [ZMod.val_natCast]
  rw [e] at this
  exact this

theorem fieldToNum_ok (ht : Opc.fieldToNum.Types K as r) (hs : SizesOk .fieldToNum as sizes) :
    ScriptOk cfg L env .fieldToNum as r sizes := by
  obtain ⟨B, rfl, rfl⟩ := ht
  rw [sizes_one hs]
  refine ⟨_, (Kind.nat B).size, rfl, Kind.size_le _, fun args ha => ?_⟩
  obtain ⟨x, rfl, hx⟩ := args_one ha
  obtain ⟨x, rfl, h1, h2⟩ := hx.nat
  refine computes_one (v := .nat x) rfl ⟨h1, h2⟩ ?_
  rw [stackVals_one]
  exact Does.nil

theorem does_extractHighBits {len x : Nat} (h1 : 1 ≤ len) (hl : len ≤ 31) (hx : x < 2 ^ 31) :
    ∃ p, extractHighBits len = some p ∧ Does cfg p [num x] [num (x >>> (32 - len) : Nat)] := by
  have hc : ∃ p, compressCustomBits 32 len = some p := by
    unfold compressCustomBits; rw [if_neg (by omega)]; exact ⟨_, rfl⟩
  obtain ⟨p, hp⟩ := hc
  refine ⟨valueTo32Bits ++ p, by unfold extractHighBits; rw [hp]; rfl, ?_⟩
  intro m a c ops h
  rw [List.append_assoc]
  refine (run_valueTo32Bits_pos hx h).trans ?_
  rw [run_compressCustomBits hp h, Nat.mod_eq_of_lt (by omega), Nat.shiftRight_eq_div_pow]
  rfl

theorem extractHighBits_ok {len : Nat} (ht : (Opc.extractHighBits len).Types K as r)
    (hs : SizesOk (.extractHighBits len) as sizes) : ScriptOk cfg L env (.extractHighBits len) as r sizes := by
  obtain ⟨B, rfl, h1, hl, rfl⟩ := ht
  rw [sizes_one hs]
  obtain ⟨p, hp, _⟩ := does_extractHighBits (cfg := cfg) (x := 0) h1 hl (by decide)
  refine ⟨p, (Kind.nat (2 ^ len)).size, ?_, Kind.size_le _, fun args ha => ?_⟩
  · rw [Opc.emit, if_pos (show (Kind.nat B).size = 1 from rfl), hp]; rfl
  obtain ⟨x, rfl, hx⟩ := args_one ha
  obtain ⟨x, rfl, _, hx⟩ := hx.nat
  obtain ⟨q, hq, hd⟩ := does_extractHighBits (cfg := cfg) h1 hl hx
  rw [hp] at hq
  cases hq
  have hlt : x >>> (32 - len) < 2 ^ (len - 1) := by
    rw [Nat.shiftRight_eq_div_pow, Nat.div_lt_iff_lt_mul (Nat.two_pow_pos _), ← Nat.pow_add,
      show len - 1 + (32 - len) = 31 by omega]
    exact hx
  have hle : 2 ^ (len - 1) ≤ 2 ^ len := Nat.pow_le_pow_right (by decide) (by omega)
  have hle' : 2 ^ (len - 1) ≤ 2 ^ 31 := Nat.pow_le_pow_right (by decide) (by omega)
  refine computes_one (v := .nat (x >>> (32 - len))) ?_ ⟨by omega, by omega⟩ ?_
  · simp only [Opc.denote]
  · rw [stackVals_one]
    exact hd

theorem reverseBitslen_ok {bits : Nat} (ht : (Opc.reverseBitslen bits).Types K as r)
    (hs : SizesOk (.reverseBitslen bits) as sizes) : ScriptOk cfg L env (.reverseBitslen bits) as r sizes := by
  obtain ⟨B, rfl, h1, hl, rfl⟩ := ht
  rw [sizes_one hs]
  obtain ⟨p, hp⟩ := indexToReverseIndex_some h1 hl
  refine ⟨p, (Kind.nat (2 ^ bits)).size, ?_, Kind.size_le _, fun args ha => ?_⟩
  · simp only [Opc.emit, hp]; rfl
  obtain ⟨x, rfl, hx⟩ := args_one ha
  obtain ⟨x, rfl, _, hx⟩ := hx.nat
  have hle : 2 ^ bits ≤ 2 ^ 31 := Nat.pow_le_pow_right (by decide) hl
  have hpos := Nat.two_pow_pos bits
  refine computes_one (v := .nat (if x < 2 ^ bits then Fri.revBits bits x else 2 ^ bits - 1)) ?_ ?_ ?_
  · simp only [Opc.denote]
  · split
    · have := Fri_revBits_lt bits x
      exact ⟨this, by omega⟩
    · exact ⟨by omega, by omega⟩
  · rw [stackVals_one]
    intro m a c ops h
    split
    · rename_i hlt
      exact (run_indexToReverseIndex hp hlt h).trans (by rw [revN_eq_revBits]; rfl)
    · rename_i hge
      exact run_indexToReverseIndex_big hp (by omega) hx h

theorem indexToRou_ok (hL : L.Ok cfg) {F : FieldConsts} {bits : Nat} (ht : (Opc.indexToRou F bits).Types K as r)
    (hs : SizesOk (.indexToRou F bits) as sizes) : ScriptOk cfg L env (.indexToRou F bits) as r sizes := by
  obtain ⟨B, rfl, hb, hF⟩ := ht
  rw [sizes_one hs]
  obtain ⟨p, hp, _⟩ := C57_out_of_range (cfg := cfg) (L := L) F bits (-1) hb (.inl (by decide)) (by decide) (by decide)
  have hr : r.length = 1 := by rcases hF with ⟨_, rfl⟩ | ⟨_, rfl⟩ <;> rfl
  refine ⟨p, F.size, ?_, ?_, fun args ha => ?_⟩
  · simp only [Opc.emit, hp, hr]; rfl
  · rcases hF with ⟨rfl, _⟩ | ⟨rfl, _⟩ <;> decide
  obtain ⟨x, rfl, hx⟩ := args_one ha
  obtain ⟨x, rfl, _, hx⟩ := hx.nat
  by_cases hlt : x < 2 ^ bits
  · rcases hF with ⟨rfl, rfl⟩ | ⟨rfl, rfl⟩
    · obtain ⟨q, hq, hd⟩ := C57_base hL bits x hb hlt
      rw [hp] at hq
      cases hq
      refine computes_one (k := .base) (v := .ofF (.base (bbGen bits ^ x))) ?_ (FVal.has (.inr rfl) rfl) ?_
      · simp only [Opc.denote, if_pos hlt]; rw [if_pos (show bbConsts.size = 1 from rfl)]
      · rw [stackVals_one]; exact hd
    · obtain ⟨q, hq, hd⟩ := C57_ext hL bits x hb hlt
      rw [hp] at hq
      cases hq
      refine computes_one (k := .ext) (v := .ofF (.ext (algebraMap BB BB4 (bbGen bits ^ x)))) ?_ trivial ?_
      · simp only [Opc.denote, if_pos hlt]; rw [if_neg (show bb4Consts.size ≠ 1 by decide)]
      · rw [stackVals_one]; exact hd
  · obtain ⟨q, hq, hf⟩ := C57_out_of_range (cfg := cfg) (L := L) F bits x hb
      (.inr (by have := Nat.not_lt.mp hlt; exact_mod_cast this)) (by omega) (by omega)
    rw [hp] at hq
    cases hq
    refine computes_none ?_ ?_
    · simp only [Opc.denote, if_neg hlt]
    · rw [stackVals_one]; exact hf

theorem fourU32ToU32_ok (ht : Opc.fourU32ToU32.Types K as r) (hs : SizesOk .fourU32ToU32 as sizes) :
    ScriptOk cfg L env .fourU32ToU32 as r sizes := by
  obtain ⟨rfl, rfl⟩ := ht
  rw [sizes_one hs]
  refine ⟨_, Kind.base.size, rfl, by decide, fun args ha => ?_⟩
  obtain ⟨x, rfl, hx⟩ := args_one ha
  obtain ⟨x, rfl⟩ := hx.ext
  refine computes_one (v := .ofF (.base ((asBase4 x).getD 0 0))) rfl (FVal.has (.inr rfl) rfl) ?_
  obtain ⟨x0, x1, x2, x3, rfl⟩ := exists_mk4 x
  rw [stackVals_one]
  show Does cfg fourU32ToU32Script (encE (mk4 x0 x1 x2 x3)) [encB ((asBase4 (mk4 x0 x1 x2 x3)).getD 0 0)]
  have : [encB ((asBase4 (mk4 x0 x1 x2 x3)).getD 0 0)] = [encB x0] := by
    have h := encE_mk4 x0 x1 x2 x3
    unfold encE at h
    cases hl : asBase4 (mk4 x0 x1 x2 x3) with
    | nil => rw [hl] at h; cases h
    | cons y l => rw [hl] at h; simp only [List.map_cons, List.cons.injEq] at h; rw [List.getD_cons_zero, h.1]
  rw [this, encE_mk4]
  exact C76_four_to_one _ _ _ _

end TapStark
