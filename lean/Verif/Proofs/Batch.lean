import Verif.Spec.BatchSound
import Verif.Proofs.Pcs
import Verif.Proofs.PcsScript
import Verif.Props.FriSound

/-! # The reduced openings that the input check computes, as sums over all claims -/

namespace TapStark.Pcs

open TapStark.Fri

variable {K F : Type} [Field K] [Field F] [DecidableEq F] [Algebra K F]
variable {SI CI DI PI : Type}

theorem dotPowers_append (a : F) : ∀ xs ys : List F, dotPowers a (xs ++ ys) = dotPowers a xs + a ^ xs.length * dotPowers a ys
  | [], ys => by simp [dotPowers_nil]
  | x :: xs, ys => by
    rw [List.cons_append, dotPowers_cons, dotPowers_append a xs ys, dotPowers_cons, List.length_cons]
    ring

theorem dotPowers_div (a d : F) : ∀ xs : List F, dotPowers a (xs.map (· / d)) = dotPowers a xs / d
  | [] => by simp [dotPowers_nil]
  | x :: xs => by
    rw [List.map_cons, dotPowers_cons, dotPowers_div a d xs, dotPowers_cons]
    ring

/-- The quotients of one matrix: for every point and column the difference of the opened and the claimed value, divided by
the difference of the points. -/
def matTerms (x : K) (opening : List K) (points : List (F × List F)) : List F :=
  points.flatMap fun p => (opening.zip p.2).map fun v => (algebraMap K F v.1 - v.2) / (algebraMap K F x - p.1)

theorem columnLoop_zip (alpha : F) : ∀ (l : List (K × F)) (ap acc : F),
    columnLoop alpha l ap acc = (ap * alpha ^ l.length,
      acc + ap * dotPowers alpha (l.map fun v => algebraMap K F v.1 - v.2))
  | [], ap, acc => by simp [columnLoop, dotPowers_nil]
  | (px, pz) :: l, ap, acc => by
    rw [columnLoop, columnLoop_zip alpha l, List.map_cons, dotPowers_cons, List.length_cons]
    congr 1 <;> ring

theorem pointLoop_terms {alpha : F} {x : K} {opening : List K} : ∀ {points : List (F × List F)} {ap ro : F} {r : F × F},
    pointLoop alpha x opening points ap ro = some r →
    r = (ap * alpha ^ (matTerms x opening points).length, ro + ap * dotPowers alpha (matTerms x opening points)) ∧
      ∀ p ∈ points, algebraMap K F x ≠ p.1
  | [], ap, ro, r, h => by
    cases h
    simp [matTerms, dotPowers_nil]
  | (z, ps) :: points, ap, ro, r, h => by
    rw [pointLoop, columnLoop_zip] at h
    simp only at h
    split at h
    · cases h
    rename_i hz
    obtain ⟨h1, h2⟩ := pointLoop_terms h
    have e : (opening.zip ps).map (fun v => (algebraMap K F v.1 - v.2) / (algebraMap K F x - z)) =
        ((opening.zip ps).map fun v => algebraMap K F v.1 - v.2).map (· / (algebraMap K F x - z)) := by
      rw [List.map_map]; rfl
    refine ⟨?_, ?_⟩
    · rw [h1]
      simp only [matTerms, List.flatMap_cons, List.length_append, List.length_map, dotPowers_append]
      rw [e, dotPowers_div, show -z + algebraMap K F x = algebraMap K F x - z by ring]
      congr 1 <;> ring
    · intro p hp
      rcases List.mem_cons.1 hp with rfl | hp
      · intro he
        apply hz
        simp only at he
        rw [he, neg_add_cancel]
      · exact h2 p hp

/-- The quotients of all matrices of one height. -/
def heightTerms (genV : Nat → K) (g : K) (b top index h : Nat) (l : List (List K × Dom K × List (F × List F))) : List F :=
  l.flatMap fun m => if m.2.1.logN + b = h then matTerms (queryPoint genV g h (index >>> (top - h))) m.1 m.2.2 else []

theorem heightTerms_cons (genV : Nat → K) (g : K) (b top index h : Nat) (m : List K × Dom K × List (F × List F))
    (l : List (List K × Dom K × List (F × List F))) : heightTerms genV g b top index h (m :: l) =
      (if m.2.1.logN + b = h then matTerms (queryPoint genV g h (index >>> (top - h))) m.1 m.2.2 else []) ++
        heightTerms genV g b top index h l := rfl

theorem matLoop_terms {genV : Nat → K} {g : K} {cfg : Config} {alpha : F} {top index : Nat} (h : Nat) :
    ∀ {l : List (List K × Dom K × List (F × List F))} {st st' : VerifyState F},
    matLoop genV g cfg alpha top index l st = some st' →
    (st' h).getD (1, 0) = (((st h).getD (1, 0)).1 * alpha ^ (heightTerms genV g cfg.logBlowup top index h l).length,
      ((st h).getD (1, 0)).2 + ((st h).getD (1, 0)).1 * dotPowers alpha (heightTerms genV g cfg.logBlowup top index h l)) ∧
    ∀ m ∈ l, m.2.1.logN + cfg.logBlowup = h → ∀ p ∈ m.2.2,
      algebraMap K F (queryPoint genV g h (index >>> (top - h))) ≠ p.1
  | [], st, st', hm => by
    cases hm
    simp [heightTerms, dotPowers_nil]
  | (opening, domain, points) :: l, st, st', hm => by
    rw [matLoop, Dom.size, log2Strict_pow, Option.bind_eq_bind, Option.bind_some] at hm
    simp only at hm
    split at hm
    case isFalse => cases hm
    case isTrue hle =>
      rw [Option.bind_eq_bind, Option.bind_eq_some_iff] at hm
      obtain ⟨r, hr, hm⟩ := hm
      obtain ⟨h1, h2⟩ := matLoop_terms h hm
      obtain ⟨h3, h4⟩ := pointLoop_terms hr
      by_cases hh : domain.logN + cfg.logBlowup = h
      · subst hh
        rw [Function.update_self, Option.getD_some, h3] at h1
        refine ⟨?_, ?_⟩
        · rw [h1, heightTerms_cons, if_pos rfl, List.length_append, dotPowers_append]
          simp only [queryPoint]
          congr 1 <;> ring
        · intro m hmem he
          rcases List.mem_cons.1 hmem with rfl | hmem
          · exact h4
          · exact h2 m hmem he
      · rw [Function.update_of_ne (fun e => hh e.symm)] at h1
        refine ⟨?_, ?_⟩
        · rw [h1, heightTerms_cons, if_neg hh, List.nil_append]
        · intro m hmem he
          rcases List.mem_cons.1 hmem with rfl | hmem
          · exact absurd he hh
          · exact h2 m hmem he

/-- All opened matrices with their claims. -/
def opened (l : List ((List (List K) × PI) × VerifierRound K F CI)) : List (List K × Dom K × List (F × List F)) :=
  l.flatMap fun e => e.1.1.zip e.2.2

theorem roundLoop_terms {MI : InMmcs K SI CI DI PI} {genV : Nat → K} {g : K} {cfg : Config} {alpha : F} {top q index : Nat}
    (h : Nat) : ∀ {l : List ((List (List K) × PI) × VerifierRound K F CI)} {st st' : VerifyState F},
    roundLoop MI genV g cfg alpha top q index l st = .ok st' →
    (st' h).getD (1, 0) =
      (((st h).getD (1, 0)).1 * alpha ^ (heightTerms genV g cfg.logBlowup top index h (opened l)).length,
      ((st h).getD (1, 0)).2 +
        ((st h).getD (1, 0)).1 * dotPowers alpha (heightTerms genV g cfg.logBlowup top index h (opened l))) ∧
    ∀ m ∈ opened l, m.2.1.logN + cfg.logBlowup = h → ∀ p ∈ m.2.2,
      algebraMap K F (queryPoint genV g h (index >>> (top - h))) ≠ p.1
  | [], st, st', hm => by
    cases hm
    simp [heightTerms, opened, dotPowers_nil]
  | (opening, commit, mats) :: l, st, st', hm => by
    rw [roundLoop, Res.bind_eq_ok] at hm
    obtain ⟨mh, -, hm⟩ := hm
    rw [Res.bind_eq_ok] at hm
    obtain ⟨lm, -, hm⟩ := hm
    split at hm
    case isFalse => cases hm
    case isTrue =>
      rw [Res.bind_eq_ok] at hm
      obtain ⟨a, -, hm⟩ := hm
      split at hm
      case isFalse => cases hm
      case isTrue =>
        rw [Res.bind_eq_ok] at hm
        obtain ⟨st1, hst, hm⟩ := hm
        have hst' : matLoop genV g cfg alpha top index (opening.1.zip mats) st = some st1 := by
          cases hx : matLoop genV g cfg alpha top index (opening.1.zip mats) st with
          | none => rw [hx] at hst; cases hst
          | some w => rw [hx] at hst; cases hst; rfl
        obtain ⟨h1, h2⟩ := roundLoop_terms h hm
        obtain ⟨h3, h4⟩ := matLoop_terms h hst'
        have e : opened ((opening, commit, mats) :: l) = opening.1.zip mats ++ opened l := rfl
        refine ⟨?_, ?_⟩
        · rw [h1, h3, e]
          simp only [heightTerms, List.flatMap_append, List.length_append, dotPowers_append]
          congr 1 <;> ring
        · intro m hmem
          rw [e, List.mem_append] at hmem
          exact hmem.elim (h4 m) (h2 m)

/-- What the input check returns for a height: the sum, with powers of the combining challenge, of the quotients of all
matrices of this height. -/
theorem verifyInput_terms {MI : InMmcs K SI CI DI PI} {genV : Nat → K} {g : K} {cfg : Config} {alpha : F}
    {rounds : List (VerifierRound K F CI)} {top q index : Nat} {ip : List (List (List K) × PI)} {vals : List (Nat × F)}
    (hv : verifyInput MI genV g cfg alpha rounds top q index ip = .ok vals) {h : Nat} (hh : h ≤ top) :
    roAt vals h = dotPowers alpha (heightTerms genV g cfg.logBlowup top index h (opened (ip.zip rounds))) ∧
    ∀ m ∈ opened (ip.zip rounds), m.2.1.logN + cfg.logBlowup = h → ∀ p ∈ m.2.2,
      algebraMap K F (queryPoint genV g h (index >>> (top - h))) ≠ p.1 := by
  have hros := verifyInput_rosOk hv
  rw [verifyInput, Res.bind_eq_ok] at hv
  obtain ⟨st, hst, hv⟩ := hv
  cases hv
  obtain ⟨h1, h2⟩ := roundLoop_terms h hst
  refine ⟨?_, h2⟩
  simp only [Option.getD_none, one_mul, zero_add] at h1
  cases hs : st h with
  | none =>
    rw [hs] at h1
    simp only [Option.getD_none, Prod.mk.injEq] at h1
    rw [← h1.2, roAt, List.filter_eq_nil_iff.2]
    · rfl
    · intro r hr
      obtain ⟨k, -, hk⟩ := List.mem_filterMap.1 hr
      rw [beq_iff_eq]
      rintro e
      cases hk' : st k with
      | none => rw [hk'] at hk; cases hk
      | some w =>
        rw [hk'] at hk
        cases hk
        simp only at e
        rw [e, hs] at hk'
        cases hk'
  | some w =>
    rw [hs, Option.getD_some] at h1
    rw [roAt_mem hros.1 (v := w.2)]
    · rw [h1]
    · exact List.mem_filterMap.2 ⟨h, by simp; omega, by rw [hs]; rfl⟩

end TapStark.Pcs
