import Verif.Spec.Linked
import Verif.Props.TcsKeys
import Verif.Props.PcsInst

/-!
C115: the openings of an accepted proof are the rows of the matrices that were committed to, or there is a hash collision.
-/

set_option linter.unusedSectionVars false

namespace TapStark.Tcs

open TapStark.Tap

variable {F H : Type} [LinearOrder H]

/-- The operators in an opening are Winternitz commitments with keys that decode. -/
def WinterProof (cfg : Cfg) (words : Nat) (π : Proof H) : Prop :=
  Winter cfg 1 π.useBcs.index ∧ ∀ o ∈ π.useBcs.evals, Winter cfg words o

/-- The operators that a manager hands out are new Winternitz commitments. -/
def WinterManager (cfg : Cfg) (words : Nat) (mgr : Manager) : Prop :=
  ∀ k, WinterNew cfg 1 (mgr k 1) ∧ WinterNew cfg words (mgr k words)

theorem prefix_of_length {α : Type} {xs ys : List (List α)} (h : xs.flatten <+: ys.flatten)
    (hl : ys.map List.length = xs.map List.length) : ys = xs := by
  have h1 : xs.flatten = ys.flatten := h.eq_of_length (by rw [List.length_flatten, List.length_flatten, hl])
  rw [List.eq_iff_flatten_eq]
  exact ⟨h1.symm, hl⟩

/-- **C115**, one opening: of matrices given tallest first. -/
theorem C115_batch {cfg : Cfg} (h20 : ∀ x, (cfg.hash160 x).length = 20) (th : TapHash (List Op) H) {fr : FieldRep F}
    (fok : FieldOk fr) {mgr : Manager} (hm : WinterManager cfg fr.u32Size mgr) {n n' q : Nat} {mats : List (Mat F)} {L : Nat}
    (hh : Heights mats L) (hL : L < 32) (hs : mats.Pairwise fun a b => b.height ≤ a.height) {roots : List H}
    {ds : List (Committed F H)} (hc : mmcsCommit th fr mgr n q mats = some ((roots, ds), n')) {k : Nat}
    {opened : List (List F)} (hshape : opened.map List.length = mats.map Mat.width) {π : Proof H}
    (hπ : WinterProof cfg fr.u32Size π) (hi : π.queryIndex < 2 ^ 31)
    (hv : verifyBatch cfg th fr k opened π roots = some true) :
    (π.queryIndex < 2 ^ L ∧ opened = mats.map fun m => rowOf m (π.queryIndex / 2 ^ (L - log2Ceil m.height))) ∨
      ∃ d, ds[k]? = some d ∧ Collides th π d := by
  obtain ⟨ds', n'', c1, c2, c3⟩ := C24_commit_query_times th fok mgr mats L hh hL q n
  simp only [mmcsCommit, c1, Option.bind_eq_bind, Option.bind_some, Option.some.injEq, Prod.mk.injEq] at hc
  obtain ⟨⟨rfl, rfl⟩, rfl⟩ := hc
  simp only [verifyBatch, Option.bind_eq_bind, Option.bind_eq_some_iff, List.getElem?_map, Option.map_eq_some_iff] at hv
  obtain ⟨root, ⟨d, hd, rfl⟩, hv⟩ := hv
  obtain ⟨m, m', hcm⟩ := c3 d (List.mem_of_getElem? hd)
  rcases C112_any_keys h20 th fok mgr m m' mats L hh hL hm d hcm π opened.flatten hπ.1 hπ.2 hv with ⟨i, h1, h2, h3⟩ | h
  · left
    rw [Nat.mod_eq_of_lt (by omega)] at h3
    obtain rfl := h3 hi
    refine ⟨h1, ?_⟩
    rw [leafRow_sorted hs hh.1, List.flatMap_def] at h2
    refine prefix_of_length h2 ?_
    rw [hshape, List.map_map]
    refine (List.map_congr_left fun x hx => ?_).symm
    obtain ⟨h, hle, hx⟩ := hh.1 x hx
    refine rowOf_length ?_
    rw [hx, log2Ceil_pow, Nat.div_lt_iff_lt_mul (Nat.two_pow_pos _), ← pow_add, Nat.add_sub_cancel' hle]
    exact h1
  · exact .inr ⟨d, hd, h⟩

end TapStark.Tcs
