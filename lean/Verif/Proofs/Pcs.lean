import Verif.Spec.Pcs
import Verif.Proofs.Fri
import Mathlib.Tactic.Ring
import Mathlib.Tactic.FieldSimp

/-! Lemmas about the polynomial commitment scheme. -/

set_option linter.unusedSectionVars false

namespace TapStark.Pcs

open Polynomial TapStark.Fri

variable {K F : Type} [Field K] [Field F] [DecidableEq K] [DecidableEq F] [Algebra K F]
variable {SI CI DI PI : Type}

/-! ### Sums of powers -/

theorem dotPowers_nil (a : F) : dotPowers a [] = 0 := rfl

theorem shiftedPowers_succ (a s : F) (n : Nat) :
    shiftedPowers a s (n + 1) = s :: (shiftedPowers a s n).map (a * ·) := by
  unfold shiftedPowers
  rw [List.range_succ_eq_map]
  simp only [List.map_cons, pow_zero, mul_one, List.map_map]
  congr 1
  apply List.map_congr_left
  intro i _
  simp only [Function.comp, Nat.succ_eq_add_one, pow_succ]
  ring

theorem zipWith_mul_sum (a : F) : ∀ (l xs : List F),
    (List.zipWith (· * ·) (l.map (a * ·)) xs).sum = a * (List.zipWith (· * ·) l xs).sum
  | [], _ => by simp
  | _ :: _, [] => by simp
  | y :: l, x :: xs => by
    simp only [List.map_cons, List.zipWith_cons_cons, List.sum_cons, zipWith_mul_sum a l xs]
    ring

theorem dotPowers_cons (a x : F) (xs : List F) : dotPowers a (x :: xs) = x + a * dotPowers a xs := by
  unfold dotPowers
  rw [List.length_cons, shiftedPowers_succ]
  simp only [List.zipWith_cons_cons, List.sum_cons, one_mul]
  rw [zipWith_mul_sum]

theorem columnLoop_eq (alpha : F) : ∀ (row : List K) (ys : List F) (ap acc : F),
    row.length = ys.length →
    columnLoop alpha (row.zip ys) ap acc = (ap * alpha ^ row.length,
      acc + ap * (dotPowers alpha (row.map (algebraMap K F)) - dotPowers alpha ys))
  | [], [], ap, acc, _ => by simp [columnLoop, dotPowers_nil]
  | x :: row, y :: ys, ap, acc, h => by
    rw [List.zip_cons_cons, columnLoop, columnLoop_eq alpha row ys _ _ (by simpa using h), List.map_cons,
      dotPowers_cons, dotPowers_cons, List.length_cons]
    congr 1 <;> ring

/-! ### The inverse denominators -/

/-- `z` is recorded with a height of at least `h`. -/
def Covers (m : List (F × Nat)) (z : F) (h : Nat) : Prop := ∃ h', m.lookup z = some h' ∧ h ≤ h'

theorem lookup_append_new (m : List (F × Nat)) (z w : F) (h : Nat) :
    (m ++ [(w, h)]).lookup z = (m.lookup z).or (if z == w then some h else none) := by
  induction m with
  | nil => simp only [List.nil_append, List.lookup]; cases z == w <;> simp
  | cons e m ih =>
    simp only [List.cons_append, List.lookup]
    cases z == e.1 <;> simp [ih]

theorem lookup_map_max (m : List (F × Nat)) (z w : F) (h : Nat) :
    (m.map fun e => if e.1 = w then (e.1, max e.2 h) else e).lookup z =
      (m.lookup z).map fun x => if z = w then max x h else x := by
  induction m with
  | nil => rfl
  | cons e m ih =>
    obtain ⟨a, n⟩ := e
    simp only [List.map_cons]
    by_cases hw : a = w
    · subst hw
      simp only [if_true, List.lookup]
      by_cases hz : z = a
      · subst hz; simp
      · have : (z == a) = false := by simpa using hz
        simp only [this, ih]
    · simp only [if_neg hw, List.lookup]
      by_cases hz : z = a
      · subst hz; simp [hw]
      · have : (z == a) = false := by simpa using hz
        simp only [this, ih]

theorem lookup_isSome (m : List (F × Nat)) (z : F) (h : m.any (fun e => decide (e.1 = z)) = true) :
    ∃ n, m.lookup z = some n := by
  induction m with
  | nil => simp at h
  | cons e m ih =>
    simp only [List.lookup]
    by_cases hz : z = e.1
    · subst hz; simp
    · have hb : (z == e.1) = false := by simpa using hz
      have hz' : ¬ e.1 = z := fun h => hz h.symm
      simp only [hb]
      apply ih
      simpa [hz'] using h

theorem lookup_isNone (m : List (F × Nat)) (z : F) (h : ¬ m.any (fun e => decide (e.1 = z)) = true) :
    m.lookup z = none := by
  induction m with
  | nil => rfl
  | cons e m ih =>
    simp only [List.any_cons, Bool.or_eq_true, decide_eq_true_eq, not_or] at h
    have hb : (z == e.1) = false := by simpa using fun hh => h.1 hh.symm
    simp only [List.lookup, hb]
    exact ih h.2

theorem covers_insert (m : List (F × Nat)) (z : F) (h : Nat) : Covers (insertPoint m z h) z h := by
  unfold insertPoint Covers
  split
  case isTrue ha =>
    obtain ⟨n, hn⟩ := lookup_isSome m z ha
    exact ⟨max n h, by rw [lookup_map_max, hn]; simp, le_max_right _ _⟩
  case isFalse ha =>
    exact ⟨h, by rw [lookup_append_new, lookup_isNone m z ha]; simp, le_rfl⟩

theorem covers_insert_of {m : List (F × Nat)} {z : F} {h : Nat} (hc : Covers m z h) (w : F) (h2 : Nat) :
    Covers (insertPoint m w h2) z h := by
  obtain ⟨n, hn, hle⟩ := hc
  unfold insertPoint
  split
  case isTrue ha =>
    refine ⟨if z = w then max n h2 else n, by rw [lookup_map_max, hn]; simp, ?_⟩
    split <;> omega
  case isFalse ha => exact ⟨n, by rw [lookup_append_new, hn]; simp, hle⟩

theorem bound_insert {m : List (F × Nat)} {N : Nat} (hm : ∀ e ∈ m, e.2 ≤ N) {z : F} {h : Nat}
    (hh : h ≤ N) : ∀ e ∈ insertPoint m z h, e.2 ≤ N := by
  unfold insertPoint
  split
  · intro e he
    obtain ⟨e', he', rfl⟩ := List.mem_map.1 he
    have := hm e' he'
    split <;> simp <;> omega
  · intro e he
    rcases List.mem_append.1 he with he | he
    · exact hm e he
    · simp only [List.mem_singleton] at he; subst he; exact hh

theorem insertAll_spec {N h : Nat} (hh : h ≤ N) : ∀ (points : List F) (m : List (F × Nat)),
    (∀ e ∈ m, e.2 ≤ N) →
    (∀ e ∈ points.foldl (fun m z => insertPoint m z h) m, e.2 ≤ N) ∧
      (∀ z h', Covers m z h' → Covers (points.foldl (fun m z => insertPoint m z h) m) z h') ∧
      ∀ z ∈ points, Covers (points.foldl (fun m z => insertPoint m z h) m) z h
  | [], m, hm => ⟨hm, fun _ _ h => h, by simp⟩
  | w :: points, m, hm => by
    obtain ⟨h1, h2, h3⟩ := insertAll_spec hh points (insertPoint m w h) (bound_insert hm hh)
    refine ⟨h1, fun z h' hc => h2 z h' (covers_insert_of hc w h), ?_⟩
    intro z hz
    rcases List.mem_cons.1 hz with rfl | hz
    · exact h2 _ _ (covers_insert m z h)
    · exact h3 z hz

theorem log2Strict_eq {n k : Nat} (h : log2Strict n = some k) : n = 2 ^ k := by
  unfold log2Strict at h
  split at h
  case isTrue h' => obtain rfl := Option.some.inj h; exact h'.symm
  case isFalse => cases h

theorem pointHeightsMats_spec {N : Nat} : ∀ (l : List (Mat K × List F)) (m m' : List (F × Nat)),
    (∀ x ∈ l, x.1.length ≤ 2 ^ N) → (∀ e ∈ m, e.2 ≤ N) →
    (l.foldlM (init := m) fun m (mat, points) => do
      let logHeight ← log2Strict mat.length
      some (points.foldl (fun m z => insertPoint m z logHeight) m)) = some m' →
    (∀ e ∈ m', e.2 ≤ N) ∧ (∀ z h, Covers m z h → Covers m' z h) ∧
      ∀ x ∈ l, ∀ h, x.1.length = 2 ^ h → ∀ z ∈ x.2, Covers m' z h
  | [], m, m', _, hm, h => by
    obtain rfl := Option.some.inj h
    exact ⟨hm, fun _ _ h => h, by simp⟩
  | (mat, points) :: l, m, m', hl, hm, h => by
    simp only [List.foldlM_cons, Option.bind_eq_bind, Option.bind_eq_some_iff] at h
    obtain ⟨m1, ⟨k, hk, h1⟩, h2⟩ := h
    have hk' := log2Strict_eq hk
    have hkN : k ≤ N := by
      have := hl (mat, points) List.mem_cons_self
      simp only [hk'] at this
      exact (Nat.pow_le_pow_iff_right (by omega)).1 this
    obtain rfl := Option.some.inj h1
    obtain ⟨a1, a2, a3⟩ := insertAll_spec hkN points m hm
    obtain ⟨b1, b2, b3⟩ := pointHeightsMats_spec l _ m' (fun x hx => hl x (List.mem_cons_of_mem _ hx)) a1 h2
    refine ⟨b1, fun z h hc => b2 z h (a2 z h hc), ?_⟩
    intro x hx h hxh z hz
    rcases List.mem_cons.1 hx with rfl | hx
    · simp only at hxh hz
      rw [hk'] at hxh
      obtain rfl := Nat.pow_right_injective (by omega) hxh
      exact b2 _ _ (a3 z hz)
    · exact b3 x hx h hxh z hz

theorem pointHeights_spec' {N : Nat} : ∀ (l : List (ProverRound K F)) (m m' : List (F × Nat)),
    (∀ r ∈ l, ∀ x ∈ r.1.zip r.2, x.1.length ≤ 2 ^ N) → (∀ e ∈ m, e.2 ≤ N) →
    (l.foldlM (init := m) fun m round =>
      (round.1.zip round.2).foldlM (init := m) fun m (mat, points) => do
        let logHeight ← log2Strict mat.length
        some (points.foldl (fun m z => insertPoint m z logHeight) m)) = some m' →
    (∀ e ∈ m', e.2 ≤ N) ∧ (∀ z h, Covers m z h → Covers m' z h) ∧
      ∀ r ∈ l, ∀ x ∈ r.1.zip r.2, ∀ h, x.1.length = 2 ^ h → ∀ z ∈ x.2, Covers m' z h
  | [], m, m', _, hm, h => by
    obtain rfl := Option.some.inj h
    exact ⟨hm, fun _ _ h => h, by simp⟩
  | r :: l, m, m', hl, hm, h => by
    rw [List.foldlM_cons, Option.bind_eq_bind, Option.bind_eq_some_iff] at h
    obtain ⟨m1, h1, h2⟩ := h
    obtain ⟨a1, a2, a3⟩ := pointHeightsMats_spec (r.1.zip r.2) m m1 (hl r List.mem_cons_self) hm h1
    obtain ⟨b1, b2, b3⟩ := pointHeights_spec' l m1 m' (fun x hx => hl x (List.mem_cons_of_mem _ hx)) a1 h2
    refine ⟨b1, fun z h hc => b2 z h (a2 z h hc), ?_⟩
    intro x hx y hy h hyh z hz
    rcases List.mem_cons.1 hx with rfl | hx
    · exact b2 _ _ (a3 y hy h hyh z hz)
    · exact b3 x hx y hy h hyh z hz

theorem mapM_lookup {f : Nat → Option (List F)} {g : F → Nat → Option (List F)} :
    ∀ (m : List (F × Nat)) (inv : List (F × List F)),
      (m.mapM fun (z, n) => (g z n).bind fun l => some (z, l)) = some inv →
      ∀ z n, m.lookup z = some n → ∃ l, g z n = some l ∧ inv.lookup z = some l
  | [], _, _, _, _, h => by simp at h
  | (w, k) :: m, inv, h, z, n, hl => by
    simp only [List.mapM_cons, Option.bind_eq_bind, Option.bind_eq_some_iff] at h
    obtain ⟨e, ⟨l, h1, h2⟩, inv', h3, h4⟩ := h
    obtain rfl := Option.some.inj h2
    obtain rfl := Option.some.inj h4
    by_cases hz : z = w
    · subst hz
      simp only [List.lookup, beq_self_eq_true, Option.some.injEq] at hl
      subst hl
      exact ⟨l, h1, by simp [List.lookup]⟩
    · have hb : (z == w) = false := by simpa using hz
      simp only [List.lookup, hb] at hl ⊢
      exact mapM_lookup (f := f) m inv' h3 z n hl

theorem mapM_guard {α β : Type} {p : α → Prop} [DecidablePred p] {f : α → β} :
    ∀ (l : List α) (r : List β), (l.mapM fun x => if p x then none else some (f x)) = some r →
      r = l.map f ∧ ∀ x ∈ l, ¬ p x
  | [], r, h => by obtain rfl := Option.some.inj h; simp
  | x :: l, r, h => by
    simp only [List.mapM_cons, Option.bind_eq_bind, Option.bind_eq_some_iff] at h
    obtain ⟨y, h1, r', h2, h3⟩ := h
    split at h1
    case isTrue => cases h1
    case isFalse hx =>
      obtain rfl := Option.some.inj h1
      obtain rfl := Option.some.inj h3
      obtain ⟨rfl, h4⟩ := mapM_guard l r' h2
      refine ⟨rfl, ?_⟩
      intro y hy
      rcases List.mem_cons.1 hy with rfl | hy
      · exact hx
      · exact h4 y hy

/-- The evaluation point of row `i` of a committed matrix of height `2^h`. -/
def pt (genV : Nat → K) (g : K) (h i : Nat) : K := g * genV h ^ revBits h i

theorem le_max?_of_mem : ∀ {l : List Nat} {a x : Nat}, l.max? = some a → x ∈ l → x ≤ a := by
  intro l a x h hx
  exact (List.max?_eq_some_iff.1 h).2 x hx

/-- The inverse denominators of a point opened at a matrix of height `2^h`. -/
theorem inverseDenominators_spec {genV : Nat → K} {N : Nat} (hg : TwoAdic genV N)
    {rounds : List (ProverRound K F)} {g : K} {inv : List (F × List F)}
    (hN : ∀ r ∈ rounds, ∀ x ∈ r.1.zip r.2, x.1.length ≤ 2 ^ N)
    (h : inverseDenominators genV rounds g = some inv) :
    ∀ r ∈ rounds, ∀ x ∈ r.1.zip r.2, ∀ h, x.1.length = 2 ^ h → ∀ z ∈ x.2,
      ∃ L, inv.lookup z = some L ∧ 2 ^ h ≤ L.length ∧ ∀ i, i < 2 ^ h →
        algebraMap K F (pt genV g h i) - z ≠ 0 ∧
        L[i]? = some (algebraMap K F (pt genV g h i) - z)⁻¹ := by
  unfold inverseDenominators at h
  simp only [Option.bind_eq_bind, Option.bind_eq_some_iff] at h
  obtain ⟨m, hm, top, htop, h⟩ := h
  obtain ⟨a1, -, a2⟩ := pointHeights_spec' rounds [] m hN (by simp) hm
  intro r hr x hx h0 hx0 z hz
  obtain ⟨n, hn, hle⟩ := a2 r hr x hx h0 hx0 z hz
  rw [revSlice_shifted] at h
  obtain ⟨L, hL, hlook⟩ := mapM_lookup (f := fun _ => none) (g := fun z n =>
    (((List.range (2 ^ top)).map fun i => g * genV top ^ revBits top i).take (2 ^ n)).mapM fun x =>
      if algebraMap K F x - z = 0 then none else some (algebraMap K F x - z)⁻¹) m inv h z n hn
  obtain ⟨rfl, hne⟩ := mapM_guard _ _ hL
  have hmem : (z, n) ∈ m := by
    clear * - hn
    induction m with
    | nil => simp at hn
    | cons e m ih =>
      simp only [List.lookup] at hn
      by_cases hz : z = e.1
      · simp only [hz, beq_self_eq_true, Option.some.injEq] at hn
        subst hn; subst hz; simp
      · have hb : (z == e.1) = false := by simpa using hz
        simp only [hb] at hn
        exact List.mem_cons_of_mem _ (ih hn)
  have hnt : n ≤ top := le_max?_of_mem htop (List.mem_map.2 ⟨_, hmem, rfl⟩)
  have htN : top ≤ N := by
    obtain ⟨e, he, rfl⟩ := List.mem_map.1 (List.max?_eq_some_iff.1 htop).1
    exact a1 e he
  have hp1 : 2 ^ h0 ≤ 2 ^ n := Nat.pow_le_pow_right (by omega) hle
  have hp2 : 2 ^ n ≤ 2 ^ top := Nat.pow_le_pow_right (by omega) hnt
  have hpt : ∀ i, i < 2 ^ h0 → g * genV top ^ revBits top i = pt genV g h0 i := by
    intro i hi
    unfold pt
    obtain ⟨j, rfl⟩ : ∃ j, top = h0 + j := ⟨top - h0, by omega⟩
    rw [hg.point_extend htN hi]
  have hget : ∀ i, i < 2 ^ h0 →
      (((List.range (2 ^ top)).map fun i => g * genV top ^ revBits top i).take (2 ^ n))[i]? =
        some (pt genV g h0 i) := by
    intro i hi
    rw [List.getElem?_take_of_lt (by omega), List.getElem?_map, List.getElem?_range (by omega),
      Option.map_some, hpt i hi]
  refine ⟨_, hlook, ?_, ?_⟩
  · simp; omega
  · intro i hi
    refine ⟨hne _ (List.mem_of_getElem? (hget i hi)), ?_⟩
    rw [List.getElem?_map, hget i hi]
    rfl

/-! ### Prover and verifier compute the same reduced openings -/

/-- The accumulators of the prover and of the verifier for query index `idx` agree at height `h`. -/
def RelAt (G idx : Nat) (alpha : F) (h : Nat) (ro : Option (List F)) (num : Nat)
    (v : Option (F × F)) : Prop :=
  match ro with
  | none => v = none ∧ num = 0
  | some l => l.length = 2 ^ h ∧ h ≤ G ∧ v = some (alpha ^ num, l.getD (idx / 2 ^ (G - h)) 0)

def Rel (G idx : Nat) (alpha : F) (st : ReduceState F) (vs : VerifyState F) : Prop :=
  ∀ h, RelAt G idx alpha h (st.ro h) (st.num h) (vs h)

theorem zipWith_add_getD {a b : List F} (hl : a.length = b.length) (i : Nat) :
    (List.zipWith (· + ·) a b).getD i 0 = a.getD i 0 + b.getD i 0 := by
  simp only [List.getD_eq_getElem?_getD, List.getElem?_zipWith]
  by_cases hi : i < a.length
  · rw [List.getElem?_eq_getElem hi, List.getElem?_eq_getElem (by omega)]
    rfl
  · rw [List.getElem?_eq_none (by omega), List.getElem?_eq_none (by omega)]
    simp

/-- The denominators of the points of a matrix of height `2^h`. -/
def InvOk (genV : Nat → K) (g : K) (inv : List (F × List F)) (h : Nat) (points : List F) : Prop :=
  ∀ z ∈ points, ∃ L, inv.lookup z = some L ∧ 2 ^ h ≤ L.length ∧ ∀ i, i < 2 ^ h →
    algebraMap K F (pt genV g h i) - z ≠ 0 ∧ L[i]? = some (algebraMap K F (pt genV g h i) - z)⁻¹

/-- What one point adds to the reduced openings. -/
theorem openPoint_spec {X : Ext K F} {genV : Nat → K} {g : K} {cfg : Config} {alpha : F}
    {inv : List (F × List F)} {mat : Mat K} {h : Nat} {st st' : ReduceState F} {z : F} {ys : List F}
    (hmat : mat.length = 2 ^ h) (hinv : InvOk genV g inv h [z])
    {l : List F} (hl : st.ro h = some l) (hll : l.length = 2 ^ h)
    (hp : openPoint X g cfg alpha inv mat h st z = some (st', ys)) :
    (∃ low, bitReverseRows (mat.take (mat.length >>> cfg.logBlowup)) = some low ∧
      X.interpolate low g z = some ys) ∧
    ∃ l', st' = ⟨Function.update st.ro h (some l'), Function.update st.num h (st.num h + mat.width)⟩ ∧
      l'.length = 2 ^ h ∧ ∀ i, i < 2 ^ h →
        l'.getD i 0 = l.getD i 0 + alpha ^ st.num h *
          (dotPowers alpha ((mat.getD i []).map (algebraMap K F)) - dotPowers alpha ys) *
            (algebraMap K F (pt genV g h i) - z)⁻¹ := by
  obtain ⟨L, hL1, hL2, hL3⟩ := hinv z (by simp)
  unfold openPoint at hp
  simp only [hl, hL1, Option.bind_eq_bind, Option.bind_some, Option.bind_eq_some_iff,
    Option.some.injEq, Prod.mk.injEq] at hp
  obtain ⟨low, hlow, ys', hys, rfl, rfl⟩ := hp
  refine ⟨⟨low, hlow, hys⟩, ?_⟩
  set changes := List.zipWith (fun r d => alpha ^ st.num h * (r - dotPowers alpha ys') * d)
    (mat.map fun row => dotPowers alpha (row.map (algebraMap K F))) L with hch
  have hcl : changes.length = 2 ^ h := by
    rw [hch, List.length_zipWith, List.length_map, hmat]; omega
  have hd : l.drop changes.length = [] := by rw [hcl, List.drop_eq_nil_iff]; omega
  refine ⟨_, rfl, ?_, ?_⟩
  · rw [hd]; simp [hll, hcl]
  · intro i hi
    rw [hd, List.append_nil, zipWith_add_getD (by omega)]
    congr 1
    rw [hch, List.getD_eq_getElem?_getD, List.getElem?_zipWith, List.getElem?_map, (hL3 i hi).2,
      List.getElem?_eq_getElem (by omega), List.getD_eq_getElem?_getD,
      List.getElem?_eq_getElem (show i < mat.length by omega)]
    rfl

theorem width_low {mat low : Mat K} {n w : Nat} (hn : 1 ≤ n) (hnm : n ≤ mat.length)
    (hrect : ∀ row ∈ mat, row.length = w) (h : bitReverseRows (mat.take n) = some low) :
    Mat.width low = w := by
  unfold bitReverseRows at h
  simp only [Option.bind_eq_bind, Option.bind_eq_some_iff, Option.some.injEq] at h
  obtain ⟨k, hk, rfl⟩ := h
  have hk' := log2Strict_eq hk
  unfold Mat.width
  obtain ⟨n', rfl⟩ : ∃ n', n = n' + 1 := ⟨n - 1, by omega⟩
  have hlen : (mat.take (n' + 1)).length = n' + 1 := by rw [List.length_take]; omega
  rw [hlen, List.range_succ_eq_map, List.map_cons, List.headD_cons]
  have hr : revBits k 0 < (mat.take (n' + 1)).length := by rw [hk']; exact revBits_lt k 0
  rw [List.getD_eq_getElem?_getD, List.getElem?_eq_getElem hr]
  exact hrect _ (List.mem_of_mem_take (List.getElem_mem hr))

theorem pointLoop_spec {X : Ext K F} (hX : X.Width) {genV : Nat → K} {g : K} {cfg : Config} {alpha : F}
    {inv : List (F × List F)} {mat : Mat K} {h i : Nat} (hmat : mat.length = 2 ^ h)
    (hb : cfg.logBlowup ≤ h) (hrect : ∀ row ∈ mat, row.length = mat.width) (hi : i < 2 ^ h) :
    ∀ (points : List F) (st st' : ReduceState F) (yss : List (List F)) (l : List F),
      InvOk genV g inv h points → st.ro h = some l → l.length = 2 ^ h →
      openPoints X g cfg alpha inv mat h st points = some (st', yss) →
      ∃ l', l'.length = 2 ^ h ∧ st'.ro h = some l' ∧
        (∀ h', h' ≠ h → st'.ro h' = st.ro h' ∧ st'.num h' = st.num h') ∧
        pointLoop alpha (pt genV g h i) (mat.getD i []) (points.zip yss) (alpha ^ st.num h)
          (l.getD i 0) = some (alpha ^ st'.num h, l'.getD i 0)
  | [], st, st', yss, l, _, hl, hll, hp => by
    simp only [openPoints, Option.some.injEq, Prod.mk.injEq] at hp
    obtain ⟨rfl, rfl⟩ := hp
    exact ⟨l, hll, hl, fun _ _ => ⟨rfl, rfl⟩, rfl⟩
  | z :: points, st, st', yss, l, hinv, hl, hll, hp => by
    simp only [openPoints, Option.bind_eq_bind, Option.bind_eq_some_iff, Option.some.injEq,
      Prod.mk.injEq] at hp
    obtain ⟨⟨st1, ys⟩, h1, ⟨st2, yss'⟩, h2, rfl, rfl⟩ := hp
    obtain ⟨⟨low, hlow, hys⟩, l1, rfl, hl1, hv⟩ := openPoint_spec hmat
      (fun w hw => hinv w (by simp only [List.mem_singleton] at hw; subst hw; simp)) hl hll h1
    obtain ⟨l', e1, e2, e3, e4⟩ := pointLoop_spec hX hmat hb hrect hi points _ st2 yss' l1
      (fun w hw => hinv w (List.mem_cons_of_mem _ hw)) (by simp) hl1 h2
    have hyl : ys.length = mat.width := by
      rw [hX _ _ _ _ hys]
      refine width_low (n := mat.length >>> cfg.logBlowup) ?_ ?_ hrect hlow
      · rw [hmat, Nat.shiftRight_eq_div_pow, Nat.pow_div hb (by omega)]
        exact Nat.one_le_two_pow
      · rw [Nat.shiftRight_eq_div_pow]; exact Nat.div_le_self _ _
    have hrow : (mat.getD i []).length = mat.width := by
      rw [List.getD_eq_getElem?_getD, List.getElem?_eq_getElem (by omega)]
      exact hrect _ (List.getElem_mem _)
    refine ⟨l', e1, e2, ?_, ?_⟩
    · intro h' hne
      obtain ⟨a, b⟩ := e3 h' hne
      rw [a, b]
      simp [Function.update_of_ne hne]
    · obtain ⟨L, -, -, hL⟩ := hinv z (by simp)
      have hne := (hL i hi).1
      have hne' : ¬ (-z + algebraMap K F (pt genV g h i) = 0) := by
        rw [neg_add_eq_sub]; exact hne
      rw [List.zip_cons_cons, pointLoop, columnLoop_eq alpha _ _ _ _ (hrow.trans hyl.symm)]
      simp only [if_neg hne']
      rw [← e4]
      simp only [Function.update_self]
      rw [hv i hi, hrow, pow_add, neg_add_eq_sub, zero_add, div_eq_mul_inv]

theorem shr_lt {G h idx : Nat} (hG : h ≤ G) (hidx : idx < 2 ^ G) : idx / 2 ^ (G - h) < 2 ^ h := by
  rw [Nat.div_lt_iff_lt_mul (Nat.two_pow_pos _), ← pow_add, Nat.add_sub_cancel' hG]
  exact hidx

theorem matLoop_spec {X : Ext K F} (hX : X.Width) {genV : Nat → K} {g : K} {cfg : Config} {alpha : F}
    {inv : List (F × List F)} {G idx : Nat} (hidx : idx < 2 ^ G) :
    ∀ (entries : List (Mat K × Dom K × List F)) (st st' : ReduceState F)
      (v : List (List (List F))) (vs : VerifyState F),
      (∀ e ∈ entries, e.1.length = 2 ^ entryHeight cfg.logBlowup e ∧
        entryHeight cfg.logBlowup e ≤ G ∧ (∀ row ∈ e.1, row.length = e.1.width) ∧
        InvOk genV g inv (entryHeight cfg.logBlowup e) e.2.2) →
      Rel G idx alpha st vs →
      openMats X g cfg alpha inv st (entries.map fun e => (e.1, e.2.2)) = some (st', v) →
      ∃ vs', Rel G idx alpha st' vs' ∧
        matLoop genV g cfg alpha G idx ((entries.map fun e =>
          e.1.getD (idx / 2 ^ (G - entryHeight cfg.logBlowup e)) []).zip
            (List.zipWith (fun e ys => (e.2.1, e.2.2.zip ys)) entries v)) vs = some vs'
  | [], st, st', v, vs, _, hr, hp => by
    simp only [List.map_nil, openMats, Option.some.injEq, Prod.mk.injEq] at hp
    obtain ⟨rfl, rfl⟩ := hp
    exact ⟨vs, hr, rfl⟩
  | (mat, dom, points) :: entries, st, st', v, vs, he, hr, hp => by
    simp only [List.map_cons, openMats, Option.bind_eq_bind, Option.bind_eq_some_iff,
      Option.some.injEq, Prod.mk.injEq] at hp
    obtain ⟨⟨st1, yss⟩, h1, ⟨st2, v'⟩, h2, rfl, rfl⟩ := hp
    obtain ⟨g1, g2, g3, g4⟩ := he _ List.mem_cons_self
    simp only [entryHeight] at g1 g2 g3 g4
    unfold openMat at h1
    simp only [g1, log2Strict_pow, Option.bind_eq_bind, Option.bind_some] at h1
    set h := dom.logN + cfg.logBlowup with hdef
    split at h1
    case isFalse => cases h1
    case isTrue h32 =>
    split at h1
    case isTrue => cases h1
    case isFalse hdbg =>
      have hrh := hr h
      have hro : ∃ l, (st.ro h).getD (List.replicate (2 ^ h) 0) = l ∧ l.length = 2 ^ h ∧
          (vs h).getD (1, 0) = (alpha ^ st.num h, l.getD (idx / 2 ^ (G - h)) 0) := by
        refine ⟨_, rfl, ?_⟩
        unfold RelAt at hrh
        match hs : st.ro h, hrh with
        | none, hrh =>
          obtain ⟨hv, hn⟩ := hrh
          refine ⟨by simp, ?_⟩
          rw [hv, hn]
          simp only [Option.getD_none, pow_zero, List.getD_eq_getElem?_getD, List.getElem?_replicate]
          split <;> rfl
        | some l, hrh =>
          obtain ⟨a, -, c⟩ := hrh
          exact ⟨a, by rw [c]; rfl⟩
      obtain ⟨l, hl, hll, hv⟩ := hro
      rw [hl] at h1
      obtain ⟨l', e1, e2, e3, e4⟩ := pointLoop_spec hX g1 (by omega) g3 (shr_lt g2 hidx) points _ st1 yss l
        g4 (by simp) hll h1
      have hrel : Rel G idx alpha st1
          (Function.update vs h (some (alpha ^ st1.num h, l'.getD (idx / 2 ^ (G - h)) 0))) := by
        intro h'
        by_cases hh : h' = h
        · subst hh
          unfold RelAt
          rw [e2]
          exact ⟨e1, g2, by simp⟩
        · obtain ⟨a, b⟩ := e3 h' hh
          rw [a, b, Function.update_of_ne hh]
          simp only [Function.update_of_ne hh]
          exact hr h'
      obtain ⟨vs', r1, r2⟩ := matLoop_spec hX hidx entries st1 st2 v' _
        (fun e hm => he e (List.mem_cons_of_mem _ hm)) hrel h2
      refine ⟨vs', r1, ?_⟩
      rw [List.map_cons, List.zipWith_cons_cons, List.zip_cons_cons, matLoop]
      simp only [Dom.size, log2Strict_pow, Option.bind_eq_bind, Option.bind_some, entryHeight]
      rw [← hdef, if_pos g2, hv]
      simp only [Nat.shiftRight_eq_div_pow]
      have e5 : pointLoop alpha (g * genV h ^ revBits h (idx / 2 ^ (G - h)))
          (mat.getD (idx / 2 ^ (G - h)) []) (points.zip yss) (alpha ^ st.num h)
          (l.getD (idx / 2 ^ (G - h)) 0) = some (alpha ^ st1.num h, l'.getD (idx / 2 ^ (G - h)) 0) := e4
      rw [e5, Option.bind_some]
      exact r2

theorem openMats_length {X : Ext K F} {g : K} {cfg : Config} {alpha : F} {inv : List (F × List F)} :
    ∀ (l : List (Mat K × List F)) (st st' : ReduceState F) (v : List (List (List F))),
      openMats X g cfg alpha inv st l = some (st', v) → v.length = l.length
  | [], st, st', v, h => by
    simp only [openMats, Option.some.injEq, Prod.mk.injEq] at h
    obtain ⟨-, rfl⟩ := h; rfl
  | (m, p) :: l, st, st', v, h => by
    simp only [openMats, Option.bind_eq_bind, Option.bind_eq_some_iff, Option.some.injEq,
      Prod.mk.injEq] at h
    obtain ⟨⟨st1, yss⟩, h1, ⟨st2, v'⟩, h2, rfl, rfl⟩ := h
    simp [openMats_length l _ _ _ h2]

/-- The largest height of a batch. -/
theorem maxHeight_pow {l : List Nat} (hl : l ≠ []) :
    ∃ top, (l.map (2 ^ ·)).max? = some (2 ^ top) ∧ top ∈ l ∧ ∀ x ∈ l, x ≤ top := by
  obtain ⟨top, ht⟩ : ∃ top, l.max? = some top := by
    cases hm : l.max? with
    | none => exact absurd (List.max?_eq_none_iff.1 hm) hl
    | some t => exact ⟨t, rfl⟩
  obtain ⟨h1, h2⟩ := List.max?_eq_some_iff.1 ht
  refine ⟨top, List.max?_eq_some_iff.2 ⟨List.mem_map.2 ⟨top, h1, rfl⟩, ?_⟩, h1, h2⟩
  intro b hb
  obtain ⟨x, hx, rfl⟩ := List.mem_map.1 hb
  exact Nat.pow_le_pow_right (by omega) (h2 x hx)

theorem roundLoop_spec {X : Ext K F} (hX : X.Width) {MI : InMmcs K SI CI DI PI} {genV : Nat → K} {g : K}
    {cfg : Config} {alpha : F} {inv : List (F × List F)} {G Q q idx : Nat} (hq : q < Q)
    (hidx : idx < 2 ^ G) :
    ∀ (rounds : List (Round K F CI DI)) (st st' : ReduceState F)
      (vals : List (List (List (List F)))) (vs : VerifyState F),
      (∀ r ∈ rounds, r.Ok MI Q cfg.logBlowup ∧ ∀ e ∈ r.entries, entryHeight cfg.logBlowup e ≤ G ∧
        InvOk genV g inv (entryHeight cfg.logBlowup e) e.2.2) →
      Rel G idx alpha st vs →
      openRounds X g cfg alpha inv st (rounds.map Round.mats) = some (st', vals) →
      ∃ ip vs', openInput MI G (rounds.map fun r => r.data) q idx = some ip ∧
        ip.length = rounds.length ∧ vals.length = rounds.length ∧
        Rel G idx alpha st' vs' ∧
        roundLoop MI genV g cfg alpha G q idx
          (ip.zip (List.zipWith (fun r v => r.verifier v) rounds vals)) vs = .ok vs'
  | [], st, st', vals, vs, _, hr, hp => by
    simp only [List.map_nil, openRounds, Option.some.injEq, Prod.mk.injEq] at hp
    obtain ⟨rfl, rfl⟩ := hp
    exact ⟨[], vs, rfl, rfl, rfl, hr, rfl⟩
  | r :: rounds, st, st', vals, vs, hok, hr, hp => by
    simp only [List.map_cons, openRounds, Option.bind_eq_bind, Option.bind_eq_some_iff,
      Option.some.injEq, Prod.mk.injEq] at hp
    obtain ⟨⟨st1, v⟩, h1, ⟨st2, vals'⟩, h2, rfl, rfl⟩ := hp
    obtain ⟨⟨k1, k2, k3, k4, k5⟩, k6⟩ := hok r List.mem_cons_self
    simp only [Round.mats] at h1
    have hz : (r.entries.map Prod.fst).zip (r.entries.map fun e => e.2.2) =
        r.entries.map fun e => (e.1, e.2.2) := by
      rw [List.zip_map']
    rw [hz] at h1
    have hvl : v.length = r.entries.length := by
      have := openMats_length _ _ _ _ h1
      rwa [List.length_map] at this
    obtain ⟨vs1, r1, r2⟩ := matLoop_spec hX hidx r.entries st st1 v vs
      (fun e he => ⟨k2 e he, (k6 e he).1, k3 e he, (k6 e he).2⟩) hr h1
    obtain ⟨ip, vs', i1, i2, i3, i4, i5⟩ := roundLoop_spec hX hq hidx rounds st1 st2 vals' vs1
      (fun x hx => hok x (List.mem_cons_of_mem _ hx)) r1 h2
    obtain ⟨top, t1, t2, t3⟩ := maxHeight_pow (l := r.entries.map (entryHeight cfg.logBlowup))
      (by simpa using k1)
    have htop : ((r.entries.map Prod.fst).map List.length).max? = some (2 ^ top) := by
      rw [← t1, List.map_map, List.map_map]
      congr 1
      apply List.map_congr_left
      intro e he
      exact k2 e he
    have htG : top ≤ G := by
      obtain ⟨e, he, rfl⟩ := List.mem_map.1 t2
      exact (k6 e he).1
    obtain ⟨π, o1, o2⟩ := k5 top htop q (idx / 2 ^ (G - top)) hq (shr_lt htG hidx)
    have hrows : (r.entries.map Prod.fst).map (fun m => m.getD (idx / 2 ^ (G - top) / (2 ^ top / m.length)) [])
        = r.entries.map fun e => e.1.getD (idx / 2 ^ (G - entryHeight cfg.logBlowup e)) [] := by
      rw [List.map_map]
      apply List.map_congr_left
      intro e he
      have hle := t3 _ (List.mem_map.2 ⟨e, he, rfl⟩)
      simp only [Function.comp]
      rw [k2 e he, Nat.pow_div hle (by omega), Nat.div_div_eq_div_mul, ← pow_add]
      congr 3
      omega
    rw [hrows] at o1 o2
    refine ⟨(r.entries.map fun e => e.1.getD (idx / 2 ^ (G - entryHeight cfg.logBlowup e)) [], π) :: ip,
      vs', ?_, by simp [i2], by simp [i3], i4, ?_⟩
    · unfold openInput at i1 ⊢
      rw [List.map_cons, List.mapM_cons, i1]
      simp only [InMmcs.getMaxHeight, k4, Option.bind_eq_bind, Option.bind_some, htop, log2Strict_pow,
        if_pos htG, Nat.shiftRight_eq_div_pow, o1]
      rfl
    · rw [List.zipWith_cons_cons, List.zip_cons_cons]
      simp only [Round.verifier]
      rw [roundLoop]
      have hmax : ((List.zipWith (fun (e : Mat K × Dom K × List F) (ys : List (List F)) =>
          (e.2.1, e.2.2.zip ys)) r.entries v).map fun m => m.1.size <<< cfg.logBlowup).max? =
            some (2 ^ top) := by
        rw [← t1]
        congr 1
        apply List.ext_getElem (by simp [hvl])
        intro i _ _
        simp [Dom.size, entryHeight, Nat.shiftLeft_eq, pow_add]
      rw [hmax]
      simp only [Res.ofOption_some, Res.bind_ok, log2Strict_pow, if_pos htG, o2, r2, if_true]
      exact i5

end TapStark.Pcs
