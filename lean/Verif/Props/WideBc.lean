import Verif.Props.Tcs

/-!
Bit commitment operators for several words, put together from those for one word.  They show that the assumption on the
operators (`BcOk`) can be met for the extension field too.
-/

namespace TapStark.Tcs

/-- An operator for one more word: its value is set aside while the other words are opened, and ends up on top. -/
def consBc (b bs : Bc) : Bc where
  lock := b.lock ++ ([.toAlt] ++ (bs.lock ++ [.fromAlt]))
  wit vs := bs.wit vs.dropLast ++ b.wit [vs.getLastD 0]

theorem consBc_fwd {cfg : Cfg} {n s1 s2 : Nat} {b bs : Bc} (h1 : BcOk cfg 1 s1 b) (h2 : BcOk cfg n s2 bs)
    (w1 w2 : List Elem) (x : Int) (vs : List Int) (o1 : Opens cfg b w1 [x]) (o2 : Opens cfg bs w2 vs) (rest a : List Elem) :
    run cfg (consBc b bs).lock ⟨w1 ++ w2 ++ rest, a, []⟩ = some ⟨(vs ++ [x]).reverse.map num ++ rest, a, []⟩ := by
  unfold consBc
  rw [List.append_assoc, run_append_of (h1.frame _ _ o1 _ _), run_append_of (s' := ⟨w2 ++ rest, num x :: a, []⟩) rfl,
    run_append_of (h2.frame _ _ o2 _ _), List.reverse_append]
  rfl

theorem consBc_bwd {cfg : Cfg} {n s1 s2 : Nat} {b bs : Bc} (h1 : BcOk cfg 1 s1 b) (h2 : BcOk cfg n s2 bs)
    (m a : List Elem) (s' : St) (h : run cfg (consBc b bs).lock ⟨m, a, []⟩ = some s') :
    ∃ w1 w2 rest x vs, m = w1 ++ w2 ++ rest ∧
      w1.length = s1 ∧ w2.length = s2 ∧ vs.length = n ∧ Opens cfg b w1 [x] ∧ Opens cfg bs w2 vs := by
  unfold consBc at h
  rw [run_append, Option.bind_eq_some_iff] at h
  obtain ⟨t1, k1, h⟩ := h
  obtain ⟨w1, rest, vs1, rfl, l1, l2, o1⟩ := h1.sound _ _ _ k1
  obtain ⟨x, rfl⟩ := List.length_eq_one_iff.1 l2
  rw [h1.frame _ _ o1] at k1
  have k1 := Option.some.inj k1
  subst k1
  rw [run_append_of (s' := ⟨rest, num x :: a, []⟩) rfl, run_append, Option.bind_eq_some_iff] at h
  obtain ⟨t2, k2, -⟩ := h
  obtain ⟨w2, rest', vs, rfl, l3, l4, o2⟩ := h2.sound _ _ _ k2
  exact ⟨w1, w2, rest', x, vs, by rw [List.append_assoc], l1, l3, l4, o1, o2⟩

theorem consBc_ok {cfg : Cfg} {n s1 s2 : Nat} {b bs : Bc} (h1 : BcOk cfg 1 s1 b) (h2 : BcOk cfg n s2 bs) :
    BcOk cfg (n + 1) (s1 + s2) (consBc b bs) := by
  have fwd := consBc_fwd h1 h2
  have bwd := consBc_bwd h1 h2
  refine ⟨?_, ?_, ?_⟩
  · intro w vs ho rest a
    obtain ⟨w1, w2, rest', x, vs', rfl, -, -, -, o1, o2⟩ := bwd _ _ _ ho
    have h := fwd w1 w2 x vs' o1 o2 rest' []
    rw [ho] at h
    have h := (St.mk.inj (Option.some.inj h)).1
    rw [List.append_assoc (w1 ++ w2), fwd w1 w2 x vs' o1 o2, h, List.append_assoc]
  · intro m a s' h
    obtain ⟨w1, w2, rest, x, vs, rfl, l1, l2, l3, o1, o2⟩ := bwd _ _ _ h
    refine ⟨w1 ++ w2, rest, vs ++ [x], rfl, by rw [List.length_append, l1, l2], by simp [l3], ?_⟩
    have := fwd w1 w2 x vs o1 o2 [] []
    rwa [List.append_nil, List.append_nil] at this
  · intro vs hvs hb
    obtain ⟨vs', v, rfl⟩ : ∃ vs' v, vs = vs' ++ [v] :=
      ⟨vs.dropLast, vs.getLast (by rintro rfl; cases hvs), (List.dropLast_append_getLast _).symm⟩
    have e : (consBc b bs).wit (vs' ++ [v]) = bs.wit vs' ++ b.wit [v] := by
      simp [consBc]
    obtain ⟨l1, o1⟩ := h1.honest [v] rfl (by
      intro x hx
      obtain rfl := List.mem_singleton.1 hx
      exact hb _ (by simp))
    obtain ⟨l2, o2⟩ := h2.honest vs' (by simpa using hvs) fun x hx => hb _ (by simp [hx])
    rw [e]
    refine ⟨by rw [List.length_append, l1, l2]; omega, ?_⟩
    have := fwd _ _ _ _ o1 o2 [] []
    rw [List.append_nil, List.append_nil] at this
    rw [List.reverse_append, List.map_append]
    exact this

/-- One Winternitz commitment for values of one word, four of them for values of four words. -/
def wideManager (bc : Bc) : Manager := fun _ w => if w = 4 then consBc bc (consBc bc (consBc bc bc)) else bc

theorem wideManager_ok {cfg : Cfg} {bc : Bc} (h : BcOk cfg 1 20 bc) {F : Type} (fr : FieldRep F) (hf : fr.u32Size = 4)
    (n w : Nat) : BcsOk cfg 4 20 80 (assigned fr (wideManager bc) n w) := by
  refine ⟨h, ?_⟩
  intro b hb
  obtain ⟨-, -, rfl⟩ := List.mem_map.1 hb
  rw [wideManager, hf, if_pos rfl]
  exact consBc_ok h (consBc_ok h (consBc_ok h h))

end TapStark.Tcs
