import Verif.Props.Tcs

/-!
C103: opening and verifying several queries in one call.
-/

namespace TapStark.Tcs

open TapStark.Tap

variable {F H : Type} [LinearOrder H]

theorem mapM_each {α β : Type} {f : α → Option β} : ∀ {l : List α} {r : List β}, l.mapM f = some r →
    r.length = l.length ∧ ∀ (k : Nat) a, l[k]? = some a → ∃ b, r[k]? = some b ∧ f a = some b
  | [], r, h => by
    rw [List.mapM_nil] at h
    cases h
    simp
  | a :: l, r, h => by
    rw [List.mapM_cons] at h
    simp only [Option.bind_eq_bind, Option.bind_eq_some_iff, Option.pure_def, Option.some.injEq] at h
    obtain ⟨b, hb, r', hr, rfl⟩ := h
    obtain ⟨h1, h2⟩ := mapM_each hr
    refine ⟨by simp [h1], fun k x hx => ?_⟩
    cases k with
    | zero => simp only [List.getElem?_cons_zero, Option.some.injEq] at hx; subst hx; exact ⟨b, rfl, hb⟩
    | succ k => simpa using h2 k x (by simpa using hx)

theorem mapM_all {α β : Type} {f : α → Option β} : ∀ {l : List α}, (∀ (k : Nat) a, l[k]? = some a → (f a).isSome) →
    ∃ r, l.mapM f = some r
  | [], _ => ⟨[], rfl⟩
  | a :: l, h => by
    obtain ⟨b, hb⟩ := Option.isSome_iff_exists.mp (h 0 a rfl)
    obtain ⟨r, hr⟩ := mapM_all (f := f) (l := l) fun k x hx => h (k + 1) x (by simpa using hx)
    exact ⟨b :: r, by rw [List.mapM_cons, hb, hr]; rfl⟩

/-- The loop of `verify_with_query_times` one query further. -/
theorem verify_succ (cfg : Cfg) (th : TapHash (List Op) H) (fr : FieldRep F) (roots : List H) (ps : List (Proof H))
    (values : List (List F)) (q : Nat) :
    verifyWithQueryTimes cfg th fr roots ps values (q + 1) =
      (verifyWithQueryTimes cfg th fr roots ps values q).bind fun success =>
        if success = false then some false
        else roots[q]?.bind fun r => ps[q]?.bind fun p => values[q]?.bind fun v => verify cfg th fr r p v := by
  unfold verifyWithQueryTimes
  rw [List.range_succ, List.foldlM_append]
  simp only [List.foldlM_cons, List.foldlM_nil, Option.bind_eq_bind, Option.pure_def, Option.bind_fun_some]
  congr 1
  funext b
  cases b <;> rfl

/-- C103: the combined verification accepts iff every one of its queries is accepted on its own. -/
theorem C103_accepts (cfg : Cfg) (th : TapHash (List Op) H) (fr : FieldRep F) (roots : List H) (ps : List (Proof H))
    (values : List (List F)) (q : Nat) :
    verifyWithQueryTimes cfg th fr roots ps values q = some true ↔
      ∀ k, k < q → ∃ r p v, roots[k]? = some r ∧ ps[k]? = some p ∧ values[k]? = some v ∧
        verify cfg th fr r p v = some true := by
  constructor
  · intro h k hk
    exact C26_every_query_partial cfg th fr roots ps values q h k hk
  · intro h
    induction q with
    | zero => rfl
    | succ q ih =>
      obtain ⟨r, p, v, h1, h2, h3, h4⟩ := h q (by omega)
      rw [verify_succ, ih fun k hk => h k (by omega)]
      simp [h1, h2, h3, h4]

/-- C103: the first query that is refused decides: the combined verification is refused, whatever follows, and queries
after it are not looked at. -/
theorem C103_refuses (cfg : Cfg) (th : TapHash (List Op) H) (fr : FieldRep F) (roots : List H) (ps : List (Proof H))
    (values : List (List F)) {q k : Nat} (hk : k < q)
    (before : verifyWithQueryTimes cfg th fr roots ps values k = some true) {r : H} {p : Proof H} {v : List F}
    (hr : roots[k]? = some r) (hp : ps[k]? = some p) (hv : values[k]? = some v)
    (hf : verify cfg th fr r p v = some false) :
    verifyWithQueryTimes cfg th fr roots ps values q = some false := by
  obtain ⟨d, rfl⟩ : ∃ d, q = k + 1 + d := ⟨q - (k + 1), by omega⟩
  clear hk
  induction d with
  | zero => rw [Nat.add_zero, verify_succ, before]; simp [hr, hp, hv, hf]
  | succ d ih => rw [← Nat.add_assoc, verify_succ, ih]; rfl

omit [LinearOrder H] in
/-- C103: opening several queries in one call gives, for the `k`-th commitment, the proof of the `k`-th index, and the row
of that index of the matrices of the first commitment; it panics without queries. -/
theorem C103_open (indices : List Nat) (ds : List (Committed F H)) (ps : List (Proof H)) (vs : List (List F)) (q : Nat)
    (h : openWithQueryTimes indices ds q = some (ps, vs)) :
    indices.length = q ∧ ds.length = q ∧ ps.length = q ∧ vs.length = q ∧ 0 < q ∧
    ∀ (k i : Nat) (d d0 : Committed F H), indices[k]? = some i → ds[k]? = some d → ds[0]? = some d0 →
      (∃ p, ps[k]? = some p ∧ d.queryProof i = some p) ∧
      (∃ v, vs[k]? = some v ∧ (paddingMatrix d0.leaves).bind (·[i]?) = some v) := by
  unfold openWithQueryTimes at h
  split at h
  · rename_i hl
    simp only [Option.bind_eq_bind, Option.bind_eq_some_iff] at h
    obtain ⟨ps', hps, d0, hd0, ys, hys, vs', hvs, h⟩ := h
    cases h
    obtain ⟨p1, p2⟩ := mapM_each hps
    obtain ⟨v1, v2⟩ := mapM_each hvs
    have hpos : 0 < ds.length := by
      rcases ds with _ | ⟨d, ds⟩
      · cases hd0
      · simp
    refine ⟨hl.1, hl.2, by rw [p1]; simp [hl.1], by rw [v1, hl.1], by omega, ?_⟩
    intro k i d d0' hi hd hd0'
    rw [hd0] at hd0'
    cases hd0'
    have hk : k < q := by
      rw [← hl.1]
      exact (List.getElem?_eq_some_iff.mp hi).1
    obtain ⟨p, hp, hq⟩ := p2 k (k, i) (by rw [List.getElem?_zip_eq_some]; exact ⟨by simp [hk], hi⟩)
    obtain ⟨v, hv, hw⟩ := v2 k i hi
    simp only [hd, Option.bind_some] at hq
    exact ⟨⟨p, hp, hq⟩, v, hv, by rw [hys, Option.bind_some]; exact hw⟩
  · cases h

/-- C103: committing to matrices of power-of-two heights once per query, opening any indices in one call and verifying in
one call: the rows are those of the matrices and the verification accepts. -/
theorem C103_complete {cfg : Cfg} (th : TapHash (List Op) H) {fr : FieldRep F} (fok : FieldOk fr) (mgr : Manager)
    (mats : List (Mat F)) (L : Nat) (hh : Heights mats L) (h1 : 1 ≤ L) (hL : L < 32) (isize esize : Nat)
    (ok : ∀ n w, BcsOk cfg fr.u32Size isize esize (assigned fr mgr n w)) (n : Nat) (indices : List Nat)
    (hne : indices ≠ []) (hi : ∀ i ∈ indices, i < 2 ^ L) :
    ∃ ds n' ps, commitPolyWithQueryTimes th fr mgr mats n indices.length = some (ds, n') ∧
      openWithQueryTimes indices ds indices.length = some (ps, indices.map (leafRow mats L)) ∧
      verifyWithQueryTimes cfg th fr (ds.map fun d => d.tree.root.hash) ps (indices.map (leafRow mats L)) indices.length =
        some true := by
  obtain ⟨ds, n', c1, c2, c3⟩ := C24_commit_query_times th fok mgr mats L hh hL indices.length n
  -- one query
  have one : ∀ d ∈ ds, ∀ i ∈ indices, ∃ p, openAt d i = some (p, leafRow mats L i) ∧
      verify cfg th fr d.tree.root.hash p (leafRow mats L i) = some true := by
    intro d hd i hin
    obtain ⟨m, m', hc⟩ := c3 d hd
    obtain ⟨d', m'', hc', h⟩ := C24_open_verify (cfg := cfg) th fok mgr m mats L hh h1 hL isize esize (ok m)
    rw [hc] at hc'
    cases hc'
    obtain ⟨p, o1, -, o3⟩ := h i (hi i hin)
    exact ⟨p, o1, o3⟩
  have parts : ∀ d ∈ ds, ∀ i ∈ indices, ∃ p, d.queryProof i = some p ∧
      (paddingMatrix d.leaves).bind (·[i]?) = some (leafRow mats L i) ∧
      verify cfg th fr d.tree.root.hash p (leafRow mats L i) = some true := by
    intro d hd i hin
    obtain ⟨p, o1, o2⟩ := one d hd i hin
    unfold openAt at o1
    simp only [Option.bind_eq_bind, Option.bind_eq_some_iff, Option.some.injEq, Prod.mk.injEq] at o1
    obtain ⟨ys, e1, p', e2, v, e3, rfl, rfl⟩ := o1
    exact ⟨p', e2, by rw [e1]; exact e3, o2⟩
  obtain ⟨ps, hps⟩ := mapM_all (l := (List.range indices.length).zip indices)
    (f := fun x : Nat × Nat => (ds[x.1]?).bind fun d => d.queryProof x.2) (by
      rintro k ⟨a, i⟩ hx
      rw [List.getElem?_zip_eq_some] at hx
      obtain ⟨x1, x2⟩ := hx
      have hk : k < indices.length := (List.getElem?_eq_some_iff.mp x2).1
      simp only [List.getElem?_range hk, Option.some.injEq] at x1
      subst x1
      have hd : ds[k]? = some ds[k] := List.getElem?_eq_getElem (by omega)
      obtain ⟨p, hp, -⟩ := parts _ (List.getElem_mem (by omega : k < ds.length)) i (List.mem_of_getElem? x2)
      simp [hd, hp])
  have hpos : 0 < ds.length := by
    rw [c2]
    exact List.length_pos_of_ne_nil hne
  have hopen : openWithQueryTimes indices ds indices.length = some (ps, indices.map (leafRow mats L)) := by
    unfold openWithQueryTimes
    rw [if_pos ⟨rfl, c2⟩]
    have hd0 : ds[0]? = some ds[0] := List.getElem?_eq_getElem hpos
    obtain ⟨i0, hi0⟩ := List.exists_mem_of_ne_nil _ hne
    obtain ⟨-, -, hy, -⟩ := parts _ (List.getElem_mem hpos) i0 hi0
    obtain ⟨ys, hys, -⟩ := Option.bind_eq_some_iff.mp hy
    have hv : indices.mapM (fun i => ys[i]?) = some (indices.map (leafRow mats L)) := by
      obtain ⟨r, hr⟩ := mapM_all (l := indices) (f := fun i => ys[i]?) (by
        intro k i hk
        obtain ⟨-, -, hy', -⟩ := parts _ (List.getElem_mem hpos) i (List.mem_of_getElem? hk)
        rw [hys, Option.bind_some] at hy'
        rw [hy']; rfl)
      obtain ⟨r1, r2⟩ := mapM_each hr
      rw [hr]
      congr 1
      refine List.ext_getElem? fun k => ?_
      by_cases hk : k < indices.length
      · obtain ⟨b, hb, hb'⟩ := r2 k indices[k] (List.getElem?_eq_getElem hk)
        obtain ⟨-, -, hy', -⟩ := parts _ (List.getElem_mem hpos) _ (List.getElem_mem hk)
        rw [hys, Option.bind_some, hb'] at hy'
        rw [hb, hy', List.getElem?_map, List.getElem?_eq_getElem hk]
        rfl
      · rw [List.getElem?_eq_none (by omega), List.getElem?_eq_none (by simp; omega)]
    simp only [Option.bind_eq_bind, hd0, Option.bind_some, hys, hv]
    erw [hps]
    rfl
  refine ⟨ds, n', ps, c1, hopen, ?_⟩
  obtain ⟨-, -, o3, -, -, o6⟩ := C103_open _ _ _ _ _ hopen
  rw [C103_accepts]
  intro k hk
  have hd : ds[k]? = some ds[k] := List.getElem?_eq_getElem (by omega)
  have hik := List.getElem?_eq_getElem hk
  obtain ⟨⟨p, hp, hq⟩, -⟩ := o6 k _ _ ds[0] hik hd (List.getElem?_eq_getElem hpos)
  obtain ⟨p', hp', -, hver⟩ := parts _ (List.getElem_mem (by omega : k < ds.length)) _ (List.getElem_mem hk)
  rw [hq] at hp'
  cases hp'
  exact ⟨ds[k].tree.root.hash, p, leafRow mats L indices[k], by rw [List.getElem?_map, hd]; rfl, hp,
    by rw [List.getElem?_map, hik]; rfl, hver⟩

omit [LinearOrder H] in
/-- C103 fails without queries: there the opening panics although the verification accepts (C26). -/
theorem C103_violated_zero (indices : List Nat) (ds : List (Committed F H)) :
    openWithQueryTimes indices ds 0 = none := by
  unfold openWithQueryTimes
  split
  · rename_i h
    rw [List.length_eq_zero_iff.mp h.1, List.length_eq_zero_iff.mp h.2]
    rfl
  · rfl

/-- C103, an instance with the Winternitz commitment: three queries, one index twice, of the matrices of C24. -/
theorem C103_instance (cfg : Cfg) (h20 : ∀ x, (cfg.hash160 x).length = 20) (th : TapHash (List Op) H) :
    ∃ mgr : Manager, ∃ ds n' ps, commitPolyWithQueryTimes th babyBearRep mgr fieldMats 0 3 = some (ds, n') ∧
      openWithQueryTimes [2, 1, 2] ds 3 = some (ps, [[12, 22, 23, 31], [11, 20, 21, 30], [12, 22, 23, 31]]) ∧
      verifyWithQueryTimes cfg th babyBearRep (ds.map fun d => d.tree.root.hash) ps
        [[12, 22, 23, 31], [11, 20, 21, 30], [12, 22, 23, 31]] 3 = some true := by
  obtain ⟨r1, r2, mgr, ok, -⟩ := C24_instance cfg h20 th 3
  obtain ⟨ds, n', ps, h⟩ := C103_complete th babyBearRep_ok mgr fieldMats 2 fieldMats_heights (by omega) (by omega) 20 20 ok 0
    [2, 1, 2] (by simp) (by simp)
  simp only [List.map_cons, List.map_nil, r1, r2] at h
  exact ⟨mgr, ds, n', ps, h⟩

end TapStark.Tcs
