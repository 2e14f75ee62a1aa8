import Verif.Proofs.ChallengerExpr
import Verif.Props.Dsl

/-
C34: the challenger that builds expressions.
-/

namespace TapStark

open Stark (BB4 asBase4 mk4)
open FS (U32 U256 Chal Cmd leValue fromPf fromU64 u256ToU32 blake3Perm)

variable {K : Variable → Kind} {env : Variable → Val} {n : Nat} {P : Expr → Prop} {fs : Nat} {hash : List UInt8 → U256}
variable {cfg : Cfg} {L : U31Lib} {T : TrackerLib}

theorem IsSample.mono {P' : Expr → Prop} {x : Expr} {ws : List U32} (h : IsSample fs K env P x ws)
    (hP : ∀ s, P s → P' s) : IsSample fs K env P' x ws := { h with mem := hP _ h.mem }

theorem forall₂_imp {α β : Type} {R S : α → β → Prop} {as : List α} {bs : List β} (h : List.Forall₂ R as bs)
    (hRS : ∀ a b, R a b → S a b) : List.Forall₂ S as bs := by
  induction h with
  | nil => exact .nil
  | cons h1 _ ih => exact .cons (hRS _ _ h1) ih

theorem exec_inv (hH : IsBlake3 hash) (hf : fs = 1 ∨ fs = 4) : ∀ {h : List (Cmd U32)} {n : Nat} {P : Expr → Prop}
    {c : Chal U32} {e : ChalExpr}, CInv fs K env n P c e →
    ∃ es e' n' P' d wss, ChalExpr.exec fs h (e, n) = some (es, e', n') ∧
      h.foldlM (execForget (blake3Perm hash) fs) c = some d ∧ Grow K P n n' P' ∧ CInv fs K env n' P' d e' ∧
      d.samples = c.samples ++ wss ∧ List.Forall₂ (IsSample fs K env P') es wss := by
  intro h
  induction h with
  | nil =>
    intro n P c e h
    exact ⟨[], e, n, P, c, [], rfl, rfl, .refl h.good h.safe, h, by simp, .nil⟩
  | cons cmd h ih =>
    intro n P c e hc
    cases cmd with
    | observe v =>
      obtain ⟨c1, e1, n1, P1, a1, a2, a3, a4, a5⟩ := observe_inv hH hf hc v
      obtain ⟨es, e', n', P', d, wss, b1, b2, b3, b4, b5, b6⟩ := ih a4
      refine ⟨es, e', n', P', d, wss, ?_, ?_, a3.trans b3, b4, by rw [b5, a5], b6⟩
      · rw [ChalExpr.exec, a2]; exact b1
      · rw [List.foldlM_cons, execForget, a1]; exact b2
    | sample =>
      obtain ⟨ws, c1, x, e1, n1, P1, a1, a2, a3, a4, a5, a6⟩ := sample_inv hH hf hc
      obtain ⟨es, e', n', P', d, wss, b1, b2, b3, b4, b5, b6⟩ := ih a4
      refine ⟨x :: es, e', n', P', d, ws :: wss, ?_, ?_, a3.trans b3, b4, ?_, .cons (a6.mono b3.sub) b6⟩
      · rw [ChalExpr.exec, a2]
        simp only [Option.bind_eq_bind, Option.bind_some]
        rw [b1]; rfl
      · rw [List.foldlM_cons, execForget, a1]; exact b2
      · rw [b5]
        show c1.samples ++ wss = _
        rw [a5]; simp

theorem good_empty : Good K n fun _ => False :=
  ⟨fun _ h => h.elim, fun _ h => h.elim, fun _ _ h => h.elim, fun _ h => h.elim, fun _ _ h => h.elim,
    fun _ h => h.elim, fun _ h => h.elim, fun _ _ _ h => h.elim⟩

theorem multiSafe_empty : MultiSafe fun _ => False := fun _ h => h.elim

/-- The script of a sampled expression, on any stack, puts the value of the sample on it. -/
def Leaves (cfg : Cfg) (L : U31Lib) (T : TrackerLib) (e : Expr) (v : Val) : Prop :=
  ∃ p, InputManager.new.script L T e = some p ∧ ∀ m a, run cfg p ⟨m, a, []⟩ = some ⟨v.enc ++ m, a, []⟩

theorem IsValue.leaves (hL : L.Ok cfg) (hT : T.Ok cfg) (hg : Good K n P) (hs : MultiSafe P)
    (hr : ∀ s v, P s → ¬ Reads s v) {x : Expr} {k : Kind} {v : Val} (hx : IsValue K env P x k v) : Leaves cfg L T x v := by
  have hm : InputManager.new.Agrees K env := ⟨fun _ h => (by cases h), fun _ h => (by cases h), List.nodup_nil⟩
  have hp : InputManager.new.Provides P := fun s v hs hv => absurd hv (hr s v hs)
  have hmu := hs.multiOk hg hx.mem hx.opc
  obtain ⟨p, _, h1, _, _⟩ := script_run hL hT hg hx.mem hm hp hmu [] []
  refine ⟨p, h1, fun m a => ?_⟩
  obtain ⟨p', rest, h1', h2, h3⟩ := script_run hL hT hg hx.mem hm hp hmu m a
  rw [h1] at h1'
  cases h1'
  have : rest = [] := h2.mpr fun _ h => (by cases h)
  subst this
  rw [h3, hx.eval]
  simp

/-- C34, what the expressions are: in every history, the script of every sampled expression computes the sample of the
native challenger that throws away the rest of its output block after every sample, the word `2^31` counting as 0. -/
theorem C34_exact (hL : L.Ok cfg) (hT : T.Ok cfg) (hH : IsBlake3 hash) (hf : fs = 1 ∨ fs = 4) (n : Nat)
    (h : List (Cmd U32)) :
    ∃ es e' n' d, ChalExpr.exec fs h (ChalExpr.new n) = some (es, e', n') ∧
      h.foldlM (execForget (blake3Perm hash) fs) (Chal.new 16 (fromU64 0)) = some d ∧
      List.Forall₂ (fun e ws => Leaves cfg L T e (wordsVal scriptWord ws)) es d.samples := by
  obtain ⟨P0, g0, i0⟩ := new_inv (K := fun _ => .base) (env := fun _ => .nat 0) fs n good_empty multiSafe_empty
  obtain ⟨es, e', n', P', d, wss, b1, b2, b3, b4, b5, b6⟩ := exec_inv hH hf (h := h) i0
  refine ⟨es, e', n', d, b1, b2, ?_⟩
  have : d.samples = wss := b5
  rw [this]
  exact forall₂_imp b6 fun x ws hx => (hx.value hf).leaves hL hT b3.good b3.safe
    fun s v hs hv => g0.quiet s v (b3.quiet s v hs hv) hv

/-! ### Relation to the native challenger -/

theorem nativeWord_eq {w : U32} (h : leValue w ≠ 2 ^ 31) : nativeWord w = scriptWord w := by
  unfold nativeWord scriptWord sampleValue fromPf
  rw [if_neg h]
  have : FS.babyBearP = bbP := rfl
  rw [this, ZMod.natCast_mod]

theorem wordsVal_congr {f g : U32 → BB} {ws : List U32} (h : ∀ w ∈ ws, f w = g w) : wordsVal f ws = wordsVal g ws := by
  match ws, h with
  | [], _ => rfl
  | [a], h => simp [wordsVal, h a]
  | [a, b], h => simp [wordsVal, h a]
  | [a, b, c], h => simp [wordsVal, h a]
  | [a, b, c, d], h => simp [wordsVal, h a, h b, h c, h d]
  | a :: b :: c :: d :: e :: l, h => simp [wordsVal, h a]

/-- Without two samples in a row, forgetting the rest of a block changes no sample. -/
theorem forget_samples (perm : List U32 → List U32) (deg : Nat) : ∀ (h : List (Cmd U32)) (c : Chal U32) (o : List U32),
    NoRepeat h → (o = c.output ∨ h.head? ≠ some .sample) →
    (h.foldlM (Cmd.exec 16 perm deg) c).map Chal.samples =
      (h.foldlM (execForget perm deg) { c with output := o }).map Chal.samples := by
  intro h
  induction h with
  | nil => intro c o _ _; rfl
  | cons cmd h ih =>
    intro c o hn ho
    have hn' : NoRepeat h := List.IsChain.tail hn
    cases cmd with
    | observe v =>
      rw [List.foldlM_cons, List.foldlM_cons, Cmd.exec, execForget]
      have : ({ c with output := o } : Chal U32).observe 16 perm v = c.observe 16 perm v := rfl
      rw [this]
      cases c.observe 16 perm v with
      | none => rfl
      | some c' => exact ih c' c'.output hn' (.inl rfl)
    | sample =>
      rcases ho with rfl | ho
      · rw [List.foldlM_cons, List.foldlM_cons, Cmd.exec, execForget]
        cases hs : c.sample 16 perm deg with
        | none => rfl
        | some r =>
          refine ih r.2 [] hn' (.inr ?_)
          cases h with
          | nil => simp
          | cons b h =>
            have := (List.isChain_cons_cons.mp hn).1
            simpa using this
      · exact absurd rfl ho

/-- C34, the part that holds: when no sample directly follows another one, and no sampled word is `2^31`, the script of
every sampled expression computes the native challenger's sample. -/
theorem C34_native_partial (hL : L.Ok cfg) (hT : T.Ok cfg) (hH : IsBlake3 hash) (hf : fs = 1 ∨ fs = 4) (n : Nat)
    (h : List (Cmd U32)) (hn : NoRepeat h) :
    ∃ es e' n' d, ChalExpr.exec fs h (ChalExpr.new n) = some (es, e', n') ∧
      FS.exec 16 (blake3Perm hash) fs (Chal.new 16 (fromU64 0)) h = some d ∧
      ((∀ ws ∈ d.samples, ∀ w ∈ ws, leValue w ≠ 2 ^ 31) →
        List.Forall₂ (fun e ws => Leaves cfg L T e (wordsVal nativeWord ws)) es d.samples) := by
  obtain ⟨es, e', n', d, h1, h2, h3⟩ := C34_exact hL hT hH hf n h
  have := forget_samples (blake3Perm hash) fs h (Chal.new 16 (fromU64 0)) [] hn (.inl rfl)
  rw [show ({ Chal.new 16 (fromU64 0) with output := [] } : Chal U32) = Chal.new 16 (fromU64 0) from rfl, h2] at this
  cases he : h.foldlM (Cmd.exec 16 (blake3Perm hash) fs) (Chal.new 16 (fromU64 0)) with
  | none => rw [he] at this; cases this
  | some d' =>
    rw [he] at this
    have hs : d'.samples = d.samples := Option.some.inj this
    refine ⟨es, e', n', d', h1, he, fun hw => ?_⟩
    rw [hs] at hw ⊢
    clear h1 h2 he this hs
    generalize d.samples = wss at h3 hw
    induction h3 with
    | nil => exact .nil
    | @cons e ws es wss h4 _ ih =>
      refine .cons ?_ (ih fun ws hws => hw ws (List.mem_cons_of_mem _ hws))
      rw [wordsVal_congr fun w hw' => nativeWord_eq (hw ws (List.mem_cons_self ..) w hw')]
      exact h4

theorem specHash_ok : IsBlake3 specHash := by
  intro bs hl
  have h1 := hashBytes_length bs hl
  apply List.ext_getElem
  · simp [h1]
  · intro i hi hi'
    simp only [specHash, List.getElem_map, Vector.getElem_toList, Vector.getElem_ofFn]
    rw [List.getD_eq_getElem?_getD, List.getElem?_eq_getElem hi', Option.getD_some]
    exact UInt8.toNat_ofNat_of_lt' (hashBytes_lt bs _ (List.getElem_mem hi'))

/-- Non-vacuity: a transcript with two samples, in both instances. -/
def demoHistory : List (Cmd U32) := [.observe #v[1, 2, 3, 4], .sample, .observe #v[5, 6, 7, 8], .sample]

example : NoRepeat demoHistory := by
  unfold NoRepeat demoHistory
  simp

example : (FS.exec 16 (blake3Perm specHash) 4 (Chal.new 16 (fromU64 0)) demoHistory).map
    (fun d => (decide (∀ ws ∈ d.samples, ∀ w ∈ ws, leValue w ≠ 2 ^ 31), d.samples.length)) = some (true, 2) := by
  decide +kernel

example (hL : L.Ok cfg) (hT : T.Ok cfg) := C34_native_partial hL hT specHash_ok (.inr rfl) 0 demoHistory
  (by unfold NoRepeat demoHistory; simp)

/-- Values that a script leaves are unique. -/
theorem Leaves.unique {e : Expr} {v w : Val} (h : Leaves cfg L T e v) (h' : Leaves cfg L T e w) : v.enc = w.enc := by
  obtain ⟨p, h1, h2⟩ := h
  obtain ⟨q, h3, h4⟩ := h'
  rw [h1] at h3
  cases h3
  have := h2 [] []
  rw [h4 [] []] at this
  simpa using this.symm

/-- C34 fails: after two samples in a row, with BLAKE3 itself, the script's second sample is another field element than
the native one: the native challenger takes it from the rest of the first block, the script from a second block. -/
theorem C34_violated_consecutive (hL : L.Ok cfg) (hT : T.Ok cfg) (n : Nat) :
    ∃ e1 e2 e' n' d w1 w2, ChalExpr.exec 4 [.sample, .sample] (ChalExpr.new n) = some ([e1, e2], e', n') ∧
      FS.exec 16 (blake3Perm specHash) 4 (Chal.new 16 (fromU64 0)) [.sample, .sample] = some d ∧ d.samples = [w1, w2] ∧
      Leaves cfg L T e1 (wordsVal nativeWord w1) ∧ ¬ Leaves cfg L T e2 (wordsVal nativeWord w2) := by
  obtain ⟨es, e', n', d, h1, h2, h3⟩ := C34_exact hL hT specHash_ok (.inr rfl) n [.sample, .sample]
  have k1 : (FS.exec 16 (blake3Perm specHash) 4 (Chal.new 16 (fromU64 0)) [.sample, .sample]).map Chal.samples =
      some [[#v[134, 171, 106, 85], #v[2, 11, 240, 80], #v[26, 253, 238, 4], #v[77, 124, 80, 248]], [#v[164, 8, 26, 173],
        #v[217, 9, 166, 48], #v[99, 106, 134, 150], #v[77, 0, 105, 118]]] := by decide +kernel
  have k2 : (([.sample, .sample] : List (Cmd U32)).foldlM (execForget (blake3Perm specHash) 4)
      (Chal.new 16 (fromU64 0))).map Chal.samples =
      some [[#v[134, 171, 106, 85], #v[2, 11, 240, 80], #v[26, 253, 238, 4], #v[77, 124, 80, 248]], [#v[4, 40, 63, 153],
        #v[232, 236, 108, 27], #v[79, 189, 17, 198], #v[111, 177, 200, 193]]] := by decide +kernel
  rw [h2] at k2
  have k2' := Option.some.inj k2
  rw [k2'] at h3
  cases he : FS.exec 16 (blake3Perm specHash) 4 (Chal.new 16 (fromU64 0)) [.sample, .sample] with
  | none => rw [he] at k1; cases k1
  | some d' =>
    rw [he] at k1
    have k1' : d'.samples = _ := Option.some.inj k1
    match es, h3 with
    | [e1, e2], .cons a1 (.cons a2 .nil) =>
      refine ⟨e1, e2, e', n', d', _, _, h1, rfl, k1', ?_, fun hc => ?_⟩
      · rw [wordsVal_congr (g := scriptWord)]
        · exact a1
        · intro w hw
          apply nativeWord_eq
          revert w
          decide
      · have h := hc.unique a2
        simp only [wordsVal, Val.enc, encE_mk4, List.cons.injEq] at h
        have h := encB_inj h.1
        rw [nativeWord, scriptWord, sampleValue, if_neg (by decide), ZMod.natCast_eq_natCast_iff] at h
        revert h
        decide

end TapStark
