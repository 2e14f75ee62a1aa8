import Verif.Proofs.ScriptQuotient
import Verif.Props.FriScript

/-
C78: what the quotient check of the script verifier accepts.
-/

namespace TapStark.Stark

open TapStark.Fri TapStark.Pcs

variable {cfg : Cfg} {L : U31Lib} {T : TrackerLib}

theorem numeratorLoop_none (table z : Expr) (degree q i : Nat) : ∀ (js : List Nat) (acc : Expr) (n : Nat),
    (∃ j ∈ js, j ≠ i) → numeratorLoop true table z degree q i js acc n = none
  | [], _, _, h => by simp at h
  | j :: js, acc, n, h => by
    rw [numeratorLoop]
    by_cases hj : j = i
    · rw [if_pos hj]
      refine numeratorLoop_none table z degree q i js acc n ?_
      obtain ⟨k, hk, hne⟩ := h
      rcases List.mem_cons.mp hk with rfl | hk
      · exact absurd hj hne
      · exact ⟨k, hk, hne⟩
    · rw [if_neg hj]
      rfl

/-- C78 fails for two or more chunks: the quotient check cannot be built, whatever the proof is. -/
theorem C78_violated_two_chunks (zeta : Expr) (degree : Nat) (g : BB) (q : Nat) (hq : 2 ≤ q) (opens : List (List BB4))
    (denomInv : List BB) (res : BB4) (m : InputManager) (n : Nat) :
    computeQuotientExpr zeta degree g q opens denomInv res m n = none := by
  obtain ⟨k, rfl⟩ : ∃ k, q = k + 2 := ⟨q - 2, by omega⟩
  have hn : ∀ t z n, numerators true t z degree (k + 2) (List.range (k + 2)) n = none := by
    intro t z n
    rw [show List.range (k + 2) = 0 :: (List.range (k + 1)).map (· + 1) from List.range_succ_eq_map]
    rw [numerators]
    simp only [Option.bind_eq_bind]
    rw [numeratorLoop_none _ _ _ _ _ _ _ _ ⟨1, List.mem_range.mpr (by omega), by omega⟩]
    rfl
  unfold computeQuotientExpr computeQuotientExprWith
  split
  · rfl
  · simp only [hn, Option.bind_eq_bind, Option.bind_none]
    simp

theorem assignAll_counter {F : Type} (B : BfField F) : ∀ (xs : List F) (m : InputManager) (n : Nat),
    n ≤ (assignAll B xs m n).2.2
  | [], _, _ => Nat.le_refl _
  | _ :: xs, _, n => Nat.le_trans (Nat.le_succ n) (assignAll_counter B xs _ _)

theorem chunkLoop_counter {opens : List Expr} : ∀ {js : List Nat} {acc acc' : Expr} {n n' : Nat},
    chunkLoop opens js acc n = some (acc', n') → n ≤ n'
  | [], _, _, _, _, h => by
    rw [chunkLoop] at h
    cases h
    exact Nat.le_refl _
  | j :: js, acc, acc', n, n', h => by
    rw [chunkLoop] at h
    simp only [Option.bind_eq_bind, Option.bind_eq_some_iff] at h
    obtain ⟨o, -, h⟩ := h
    exact Nat.le_trans (show n ≤ n + 1 + 1 + 1 by omega) (chunkLoop_counter h)

theorem getTable_one (g : BB) : getTable g 1 = some [1] := by
  simp [getTable]

/-- C78, one chunk: the quotient check can always be built, and it succeeds exactly when the inverted denominator is one
and the claimed quotient value is the value of the chunk. -/
theorem C78_one_chunk (hL : L.Ok cfg) (hT : T.Ok cfg) (zeta : Expr) (degree : Nat) (g : BB) (chunk : List BB4)
    (hc : chunk.length = 4) (d : BB) (res : BB4) (n : Nat) :
    ∃ m n1, computeQuotientExpr zeta degree g 1 [chunk] [d] res .new n = some (m, n1) ∧ n ≤ n1 ∧
      ∀ N, n1 ≤ N → ∃ m' n', m.embedHintVerify N = some (m', n') ∧
        (m'.run cfg L T = some () ↔
          d = 1 ∧ res = ((List.range 4).map fun e => chunk.getD e 0 * bb4Deg.monomial e).sum) := by
  -- the nodes, in the order of their creation
  let a1 := assignAll bb4Field chunk .new n
  let h1 := a1.2.1.assignHintInput (bbField.u32 d) a1.2.2
  let c1 := Dsl.constant (bbField.u32 64944062) h1.2.2
  let z1 := Dsl.mk .mul 4 [c1.1, zeta] c1.2
  let t1 := Dsl.fromTable 1 [bbField.u32 1] z1.2
  let num := Dsl.constant (bb4Field.u32 1) t1.2
  let den := Dsl.constant (bbField.u32 1) num.2
  let hx := Dsl.mul den.1 h1.1 den.2
  let hc' := Dsl.equalC hx.1 (bbField.u32 1) hx.2
  let q0 := Dsl.constant (bb4Field.u32 0) hc'.2
  let zp := Dsl.mk .mul 4 [h1.1, num.1] q0.2
  let a0 := Dsl.constant (bb4Field.u32 0) zp.2
  -- the inputs
  have hmem : ∀ p ∈ h1.2.1.inputs, p ∈ a1.2.1.inputs ∨ p = (⟨5, a1.2.1.counter, none⟩, bbField.u32 d) := by
    intro p hp
    have hp : p ∈ (a1.2.1.inputHint ++ [(⟨5, a1.2.1.counter, none⟩, bbField.u32 d)]) ++ a1.2.1.inputVar := hp
    simp only [List.mem_append, List.mem_singleton] at hp
    rcases hp with (hp | hp) | hp
    · exact .inl (List.mem_append_left _ hp)
    · exact .inr hp
    · exact .inl (List.mem_append_right _ hp)
  have hnew : ∀ p ∈ a1.2.1.inputs, (∃ x, p.2 = bb4Field.u32 x) ∧ ∃ e ∈ a1.1, e.opc = .inputMove p.1 := by
    intro p hp
    rcases assignAll_inputs chunk p hp with hp | hp
    · simp [InputManager.new, InputManager.inputs] at hp
    · exact hp
  have named : h1.2.1.Named := (assignAll_named chunk (m := .new)
    ⟨by simp [InputManager.new, InputManager.inputs], by simp [InputManager.new, InputManager.inputs]⟩).assignHintInput _ _
  obtain ⟨K, env, ha⟩ := exists_agrees (m := h1.2.1) named.nodup (by
    intro p hp
    rcases hmem p hp with hp | rfl
    · obtain ⟨⟨x, hx⟩, -⟩ := hnew p hp
      rw [hx, bb4Field_ok.const]
      rfl
    · show (constVal (bbField.u32 d)).isSome = true
      rw [bbField_ok.const]
      rfl)
  -- their values
  obtain ⟨P1, b1, s1, d1⟩ := assignAll_ok (env := env) bb4Field_ok chunk (Built.new K n)
    (ha.mono (InputManager.le_assignHintInput _ _ _))
  obtain ⟨P2, b2, s2, d2⟩ := makes_hintInput bbField_ok b1 d ha
  obtain ⟨P3, b3, s3, d3⟩ := makes_const (env := env) bb4Field_ok
    (b2.mono (n' := t1.2) (show h1.2.2 ≤ h1.2.2 + 1 + 1 + 1 by omega)) (1 : BB4)
  obtain ⟨P4, b4, s4, d4⟩ := makes_const (env := env) bbField_ok b3 (1 : BB)
  obtain ⟨P5, b5, s5, d5⟩ := makes_mul bbField_ok b4 d4 ((d2.mono s3).mono s4)
  obtain ⟨P6, b6, s6, p6, o6, k6⟩ := makes_equalC bbField_ok b5 d5 (1 : BB)
  obtain ⟨P7, b7, s7, d7⟩ := makes_const (env := env) bb4Field_ok b6 (0 : BB4)
  obtain ⟨P8, b8, s8, d8⟩ := makes_mulExt b7 (((((d2.mono s3).mono s4).mono s5).mono s6).mono s7)
    ((((d3.mono s4).mono s5).mono s6).mono s7)
  obtain ⟨P9, b9, s9, d9⟩ := makes_const (env := env) bb4Field_ok b8 (0 : BB4)
  have s19 : ∀ s, P1 s → P9 s := fun s h => s9 s (s8 s (s7 s (s6 s (s5 s (s4 s (s3 s (s2 s h)))))))
  have hlen : a1.1.length = 4 := by rw [d1.length_eq, hc]
  obtain ⟨ch, n', ech, ⟨P10, b10, s10, d10⟩, sub, subs⟩ := chunkLoop_ok (List.range 4) b9
    (d1.imp fun _ _ h => h.mono s19) d9 (by intro j hj; rw [hlen]; exact List.mem_range.mp hj)
  obtain ⟨P11, b11, s11, d11⟩ := makes_mul bb4Field_ok b10 d10 ((d8.mono s9).mono s10)
  obtain ⟨P12, b12, s12, d12⟩ := makes_add bb4Field_ok b11 ((((d7.mono s8).mono s9).mono s10).mono s11) d11
  obtain ⟨P13, b13, s13, p13, o13, k13⟩ := makes_equalC bb4Field_ok b12 d12 res
  let tm := Dsl.mul ch zp.1 n'
  let ac := Dsl.add q0.1 tm.1 tm.2
  let ex := Dsl.equalC ac.1 (bb4Field.u32 res) ac.2
  let M : InputManager := (h1.2.1.addHintVerify hc'.1).setExec ex.1
  have hcomp : computeQuotientExpr zeta degree g 1 [chunk] [d] res .new n = some (M, ex.2) := by
    unfold computeQuotientExpr computeQuotientExprWith
    rw [if_neg (by simp)]
    simp only [getTable_one]
    have ech' : chunkLoop (assignAll bb4Field chunk .new n).1 (List.range 4) a0.1 a0.2 = some (ch, n') := ech
    have e1 : quotientLoop true [a1.1] [h1.1] [num.1] (List.range 1) q0.1 q0.2 = some (ac.1, ac.2) := by
      show (do
        let (a, n) ← chunkLoop (assignAll bb4Field chunk .new n).1 (List.range 4) a0.1 a0.2
        let (t, n) := Dsl.mul a zp.1 n
        let (acc, n) := Dsl.add q0.1 t n
        some (acc, n)) = _
      rw [ech']
      rfl
    show (do
      let (acc, n) ← quotientLoop true [a1.1] [h1.1] [num.1] (List.range 1) q0.1 q0.2
      let (c, n) := Dsl.equalC acc (bb4Field.u32 res) n
      some ((h1.2.1.addHintVerify hc'.1).setExec c, n)) = _
    rw [e1]
    rfl
  have hcount : n ≤ ex.2 := by
    have h2 : n ≤ a1.2.2 := assignAll_counter bb4Field chunk .new n
    have h3 : a0.2 ≤ n' := chunkLoop_counter ech
    have h4 : a0.2 = a1.2.2 + 12 := rfl
    have h5 : ex.2 = n' + 4 := rfl
    omega
  refine ⟨M, ex.2, hcomp, hcount, fun N hN => ?_⟩
  have hhint : M.hint = [hc'.1] := by
    show a1.2.1.hint ++ [hc'.1] = _
    rw [(assignAll_le (B := bb4Field) chunk .new n).2]
    rfl
  have s613 : ∀ s, P6 s → P13 s := fun s h => s13 s (s12 s (s11 s (s10 s (s9 s (s8 s (s7 s h))))))
  obtain ⟨m', n'', h1', h2'⟩ := built_exact (m := M) (r := cmp bb4Field _ _) (rs := [cmp bbField (1 * d) 1]) hL hT
    ((b13.mono hN).congr rfl rfl rfl) ⟨ha.vals, ha.kinds, ha.nodup⟩ rfl p13 o13 k13
    (by rw [hhint]; exact .cons ⟨s613 _ p6, o6, k6⟩ .nil)
  refine ⟨m', n'', h1', h2'.trans ?_⟩
  rw [and_iff_left]
  · rw [one_mul, zero_add, mul_one, zero_add]
    have key : ∀ x : BB4, EvenFailures [cmp bb4Field (x * algebraMap BB BB4 d) res, cmp bbField d 1] ↔
        d = 1 ∧ res = x := by
      intro x
      by_cases hd : d = 1
      · subst hd
        rw [show cmp bbField (1 : BB) 1 = some true from cmp_true.mpr rfl, evenFailures_true (by simp), cmp_true, map_one,
          mul_one]
        exact ⟨fun h => ⟨rfl, h.symm⟩, fun h => h.2.symm⟩
      · have h1 : cmp bbField d 1 = some false := by rw [cmp, if_neg hd, if_pos (show bbField.consts.size = 1 from rfl)]
        rw [h1, cmp]
        split
        · simp [EvenFailures, hd]
        · rw [if_neg (by show ¬ (4 = 1); omega)]
          simp [EvenFailures, hd]
    exact key _
  · intro p hp
    rcases hmem p hp with hp | rfl
    · obtain ⟨-, e, he, ho⟩ := hnew p hp
      obtain ⟨i, hi, rfl⟩ := List.getElem_of_mem he
      exact ⟨_, .inl (.arg (List.mem_cons_self ..) (.arg (List.mem_cons_of_mem _ (List.mem_cons_self ..))
        (.arg (List.mem_cons_self ..) (subs i (List.mem_range.mpr (by omega)) _ (List.getElem?_eq_getElem hi))))), ho⟩
    · refine ⟨h1.1, .inr ⟨hc'.1, by rw [hhint]; exact List.mem_cons_self .., ?_⟩, rfl⟩
      exact .arg (List.mem_cons_self ..) (.arg (List.mem_cons_of_mem _ (List.mem_cons_self ..)) (.refl _))

/-- C78, one chunk, against the native verifier: with the denominator the native verifier computes, the check accepts
exactly the quotient value of the native verifier. -/
theorem C78_native (hL : L.Ok cfg) (hT : T.Ok cfg) (zetaE : Expr) (degree : Nat) (g : BB) (chunk : List BB4)
    (hc : chunk.length = 4) (dom : Dom BB) (zeta : BB4) {z : List BB4} (hz : zps [dom] zeta = some z) {v : BB4}
    (hv : recombine bb4Deg z [chunk] = some v) (res : BB4) (n : Nat) :
    ∃ m n1, computeQuotientExpr zetaE degree g 1 [chunk] [1] res .new n = some (m, n1) ∧ n ≤ n1 ∧
      ∀ N, n1 ≤ N → ∃ m' n', m.embedHintVerify N = some (m', n') ∧ (m'.run cfg L T = some () ↔ res = v) := by
  obtain ⟨m, n1, h1, hn, h⟩ := C78_one_chunk hL hT zetaE degree g chunk hc 1 res n
  refine ⟨m, n1, h1, hn, fun N hN => ?_⟩
  obtain ⟨m', n', h2, h3⟩ := h N hN
  refine ⟨m', n', h2, h3.trans ?_⟩
  have ez : z = [1] := by
    simpa [zps] using hz.symm
  subst ez
  have : v = ((List.range 4).map fun e => chunk.getD e 0 * bb4Deg.monomial e).sum := by
    have h : some ([((List.range chunk.length).map fun e => 1 * bb4Deg.monomial e * chunk.getD e 0).sum] : List BB4).sum =
        some v := hv
    rw [hc, Option.some.injEq, List.sum_singleton] at h
    rw [← h]
    congr 1
    refine List.map_congr_left fun e _ => ?_
    rw [one_mul, mul_comm]
  rw [this]
  simp

/-- The hypotheses are met: the chunk `[1, 2, 3, 4]` with the library of the repository. -/
example (zetaE : Expr) (dom : Dom BB) (zeta : BB4) (res : BB4) :
    ∃ m n1, computeQuotientExpr zetaE 8 31 1 [[1, 2, 3, 4]] [1] res .new 5 = some (m, n1) ∧ 5 ≤ n1 ∧
      ∀ N, n1 ≤ N → ∃ m' n', m.embedHintVerify N = some (m', n') ∧ (m'.run cfg (repoLib 2013265921) refTracker = some () ↔
        res = 1 + 2 * bb4Deg.monomial 1 + 3 * bb4Deg.monomial 2 + 4 * bb4Deg.monomial 3) := by
  have hz : zps [dom] zeta = some [1] := by simp [zps]
  refine C78_native (repoLib_ok cfg) (refTracker_ok cfg) zetaE 8 31 [1, 2, 3, 4] rfl dom zeta hz ?_ res 5
  have h : ([1, 2, 3, 4] : List BB4).length = 4 := rfl
  show some ([((List.range 4).map fun e => 1 * bb4Deg.monomial e * ([1, 2, 3, 4] : List BB4).getD e 0).sum]).sum = _
  rw [List.sum_singleton, show List.range 4 = [0, 1, 2, 3] from rfl]
  simp [bb4Deg]
  ring

end TapStark.Stark
