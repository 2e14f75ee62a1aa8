import Verif.Proofs.Blake3Env

namespace TapStark
open Blake3 (Word)

variable {cfg : Cfg} {env : Env} {ab : List Word}

/-- Pointer values for a state and message given as lists. -/
def ptrVal (sv mv : List Word) : Ptr → Word
  | .state i => sv.getD i 0
  | .message i => mv.getD i 0

/-- The words left by a quarter-round script, in stack order, over the values it reads. -/
def gA (a b mx : Word) : Word := a + b + mx
def gD (a b d mx : Word) : Word := (d ^^^ gA a b mx).rotateRight 16
def gC (a b c d mx : Word) : Word := c + gD a b d mx
def gB (a b c d mx : Word) : Word := (b ^^^ gC a b c d mx).rotateRight 12
def gA' (a b c d mx my : Word) : Word := gA a b mx + gB a b c d mx + my
def gD' (a b c d mx my : Word) : Word := (gD a b d mx ^^^ gA' a b c d mx my).rotateRight 8
def gC' (a b c d mx my : Word) : Word := gC a b c d mx + gD' a b c d mx my
def gB' (a b c d mx my : Word) : Word := (gB a b c d mx ^^^ gC' a b c d mx my).rotateRight 7

theorem getD_set (l : List Word) (i j : Nat) (v : Word) (hi : i < l.length) :
    (l.set i v).getD j 0 = if i = j then v else l.getD j 0 := by
  simp only [List.getD_eq_getElem?_getD, List.getElem?_set]
  by_cases h : i = j
  · subst h; simp [hi]
  · simp [h]

theorem mix_length (s : List Word) (a b c d : Nat) (mx my : Word) :
    (Blake3.mix s a b c d mx my).length = s.length := by simp [Blake3.mix]

theorem mix_getD {s : List Word} {a b c d : Nat} {mx my : Word} (hs : s.length = 16) (ha : a < 16)
    (hb : b < 16) (hc : c < 16) (hd : d < 16) (j : Nat) :
    (Blake3.mix s a b c d mx my).getD j 0 =
      let sa := s.getD a 0; let sb := s.getD b 0; let sc := s.getD c 0; let sd := s.getD d 0
      if d = j then gD' sa sb sc sd mx my else if c = j then gC' sa sb sc sd mx my
      else if b = j then gB' sa sb sc sd mx my else if a = j then gA' sa sb sc sd mx my
      else s.getD j 0 := by
  unfold Blake3.mix
  simp only
  rw [getD_set _ _ _ _ (by simp; omega), getD_set _ _ _ _ (by simp; omega),
    getD_set _ _ _ _ (by simp; omega), getD_set _ _ _ _ (by omega)]
  rfl

theorem b3G_correct {a b c d m0 m1 : Nat} {sv mv ms : List Word}
    (t : Tracks env (ptrVal sv mv) ab (tableWords ++ ms)) (f : Full env) (hab : ab.length = 16)
    (hms : ms.length < 1000) (hsv : sv.length = 16)
    (ha : a < 16) (hb : b < 16) (hc : c < 16) (hd : d < 16) (hm0 : m0 < 16) (hm1 : m1 < 16)
    (hab' : a ≠ b) (hac : a ≠ c) (had : a ≠ d) (hbc : b ≠ c) (hbd : b ≠ d) (hcd : c ≠ d) :
    ∃ p env' ab', b3G env 16 (.state a) (.state b) (.state c) (.state d) (.message m0) (.message m1) =
        some (p, env') ∧ Full env' ∧ ab'.length = 16 ∧
      Tracks env' (ptrVal (Blake3.mix sv a b c d (mv.getD m0 0) (mv.getD m1 0)) mv) ab'
        (tableWords ++ ms) ∧
      WRun cfg p (ab ++ (tableWords ++ ms)) (ab' ++ (tableWords ++ ms)) := by
  have hBl : (tableWords ++ ms).length < 2000 := by
    rw [List.length_append, tableWords_length]; omega
  generalize hA : sv.getD a 0 = va
  generalize hB : sv.getD b 0 = vb
  generalize hC : sv.getD c 0 = vc
  generalize hD : sv.getD d 0 = vd
  generalize hX : mv.getD m0 0 = mx
  generalize hY : mv.getD m1 0 = my
  -- a
  obtain ⟨ia, hia⟩ := f.some_st ha
  obtain ⟨ib, hib⟩ := f.some_st hb
  obtain ⟨ic0, hic0⟩ := f.some_st hc
  obtain ⟨id0, hid0⟩ := f.some_st hd
  obtain ⟨im0, him0⟩ := f.some_ms hm0
  obtain ⟨im10, him10⟩ := f.some_ms hm1
  have hne : ib ≠ ia := fun e => hab' (by
    have := t.inj _ _ _ hia (e ▸ hib); simpa using this)
  obtain ⟨p1, hp1⟩ := u32Add_exists hne
  have ia_lt := t.stateAbove _ _ hia
  have w1 : WRun cfg p1 (ab ++ (tableWords ++ ms)) ((vb + va) :: (ab.eraseIdx ia ++ (tableWords ++ ms))) := by
    have := wrun_add (cfg := cfg) hp1 (t.sound _ _ hib) (t.sound _ _ hia) (by
      rw [List.length_append]; omega)
    rw [List.eraseIdx_append_of_lt_length ia_lt] at this
    simpa only [ptrVal, hA, hB] using this
  have t1 := t.extract hia
  generalize hab1 : ab.eraseIdx ia = ab1 at t1 w1
  have l1 : ab1.length = 15 := by rw [← hab1, List.length_eraseIdx_of_lt ia_lt]; omega
  -- m0
  have him0' := Env.without_ne (p := .state a) (k := ia) (by simp) him0
  generalize hkm0 : (if ia < im0 then im0 - 1 else im0) = km0 at him0'
  obtain ⟨p2, hp2⟩ := u32Add_exists (i := km0 + 1) (j := 0) (by omega)
  have w2 : WRun cfg p2 ((vb + va) :: (ab1 ++ (tableWords ++ ms)))
      (gA va vb mx :: (ab1 ++ (tableWords ++ ms))) := by
    have h1 : ((vb + va) :: (ab1 ++ (tableWords ++ ms)))[km0 + 1]? = some mx := by
      rw [List.getElem?_cons_succ, t1.sound _ _ him0']; simp only [ptrVal, hX]
    have := wrun_add (cfg := cfg) (x := mx) hp2 h1 rfl (by
      rw [List.length_cons, List.length_append]; omega)
    rw [List.eraseIdx_cons_zero] at this
    rw [show gA va vb mx = mx + (vb + va) by
      unfold gA; rw [BitVec.add_comm mx, BitVec.add_comm va vb]]
    exact this
  -- d
  have hid := Env.without_ne (p := .state a) (k := ia) (by simpa using had.symm) hid0
  generalize hkd : (if ia < id0 then id0 - 1 else id0) = kd at hid
  have kd_lt := t1.stateAbove _ _ hid
  obtain ⟨p3, hp3⟩ := u32Xor_exists (i := 0) (j := kd + 1) (S := 16 + 1) (by omega) (by omega)
  obtain ⟨p4, hp4⟩ := u32Rrot_exists (n := 16) (by omega)
  have sound_ab : ∀ {e : Env} {l : List Word}, Tracks e (ptrVal sv mv) l (tableWords ++ ms) →
      ∀ i k, e (.state i) = some k → l[k]? = some (sv.getD i 0) := by
    intro e l tt i k hk
    have := tt.sound _ _ hk
    rwa [List.getElem?_append_left (tt.stateAbove _ _ hk)] at this
  have w3 : WRun cfg p3 (gA va vb mx :: (ab1 ++ (tableWords ++ ms)))
      ((vd ^^^ gA va vb mx) :: gA va vb mx :: (ab1.eraseIdx kd ++ (tableWords ++ ms))) := by
    have := wrun_xor (cfg := cfg) (ab := gA va vb mx :: ab1) (ms := ms) (x := gA va vb mx)
      (y := vd) hp3 rfl (by rw [List.getElem?_cons_succ, sound_ab t1 _ _ hid, hD])
      (by rw [List.length_cons]; omega) (by rw [List.length_cons]; omega)
    rw [List.eraseIdx_cons_succ, BitVec.xor_comm] at this
    exact this
  have t2 := t1.extract hid
  generalize hab2 : ab1.eraseIdx kd = ab2 at t2 w3
  have l2 : ab2.length = 14 := by rw [← hab2, List.length_eraseIdx_of_lt kd_lt]; omega
  have w4 : WRun cfg p4 ((vd ^^^ gA va vb mx) :: gA va vb mx :: (ab2 ++ (tableWords ++ ms)))
      (gD va vb vd mx :: gA va vb mx :: (ab2 ++ (tableWords ++ ms))) := wrun_rrot hp4
  -- c
  have hic1 := Env.without_ne (p := .state a) (k := ia) (by simpa using hac.symm) hic0
  have hic := Env.without_ne (p := .state d) (k := kd) (by simpa using hcd) hic1
  generalize hkc : (if kd < (if ia < ic0 then ic0 - 1 else ic0) then
    (if ia < ic0 then ic0 - 1 else ic0) - 1 else (if ia < ic0 then ic0 - 1 else ic0)) = kc at hic
  have kc_lt := t2.stateAbove _ _ hic
  obtain ⟨p5, hp5⟩ := u32Add_exists (i := 0) (j := kc + 2) (by omega)
  have w5 : WRun cfg p5 (gD va vb vd mx :: gA va vb mx :: (ab2 ++ (tableWords ++ ms)))
      (gC va vb vc vd mx :: gD va vb vd mx :: gA va vb mx ::
        (ab2.eraseIdx kc ++ (tableWords ++ ms))) := by
    have h1 : (gD va vb vd mx :: gA va vb mx :: (ab2 ++ (tableWords ++ ms)))[kc + 2]? = some vc := by
      rw [show kc + 2 = (kc + 1) + 1 from rfl, List.getElem?_cons_succ, List.getElem?_cons_succ,
        t2.sound _ _ hic]; simp only [ptrVal, hC]
    have := wrun_add (cfg := cfg) (y := vc) (x := gD va vb vd mx) hp5 rfl h1 (by
      simp only [List.length_cons]; rw [List.length_append]; omega)
    rw [show kc + 2 = (kc + 1) + 1 from rfl, List.eraseIdx_cons_succ, List.eraseIdx_cons_succ,
      List.eraseIdx_append_of_lt_length kc_lt, BitVec.add_comm] at this
    exact this
  have t3 := t2.extract hic
  generalize hab3 : ab2.eraseIdx kc = ab3 at t3 w5
  have l3 : ab3.length = 13 := by rw [← hab3, List.length_eraseIdx_of_lt kc_lt]; omega
  -- b
  have hib1 := Env.without_ne (p := .state a) (k := ia) (by simpa using hab'.symm) hib
  have hib2 := Env.without_ne (p := .state d) (k := kd) (by simpa using hbd) hib1
  have hib3 := Env.without_ne (p := .state c) (k := kc) (by simpa using hbc) hib2
  generalize hkb : (if kc < (if kd < (if ia < ib then ib - 1 else ib) then
    (if ia < ib then ib - 1 else ib) - 1 else (if ia < ib then ib - 1 else ib)) then
    (if kd < (if ia < ib then ib - 1 else ib) then
    (if ia < ib then ib - 1 else ib) - 1 else (if ia < ib then ib - 1 else ib)) - 1 else
    (if kd < (if ia < ib then ib - 1 else ib) then
    (if ia < ib then ib - 1 else ib) - 1 else (if ia < ib then ib - 1 else ib))) = kb at hib3
  have kb_lt := t3.stateAbove _ _ hib3
  obtain ⟨p6, hp6⟩ := u32Xor_exists (i := 0) (j := kb + 3) (S := 16 + 1) (by omega) (by omega)
  obtain ⟨p7, hp7⟩ := u32Rrot_exists (n := 12) (by omega)
  have w6 : WRun cfg p6 (gC va vb vc vd mx :: gD va vb vd mx :: gA va vb mx ::
        (ab3 ++ (tableWords ++ ms)))
      ((vb ^^^ gC va vb vc vd mx) :: gC va vb vc vd mx :: gD va vb vd mx :: gA va vb mx ::
        (ab3.eraseIdx kb ++ (tableWords ++ ms))) := by
    have h1 : (gC va vb vc vd mx :: gD va vb vd mx :: gA va vb mx :: ab3)[kb + 3]? = some vb := by
      rw [show kb + 3 = (kb + 1 + 1) + 1 from rfl, List.getElem?_cons_succ,
        List.getElem?_cons_succ, List.getElem?_cons_succ, sound_ab t3 _ _ hib3, hB]
    have := wrun_xor (cfg := cfg) (ms := ms) (x := gC va vb vc vd mx) (y := vb) hp6 rfl h1
      (by simp only [List.length_cons]; omega) (by simp only [List.length_cons]; omega)
    rw [show kb + 3 = (kb + 1 + 1) + 1 from rfl, List.eraseIdx_cons_succ, List.eraseIdx_cons_succ,
      List.eraseIdx_cons_succ, BitVec.xor_comm] at this
    exact this
  have t4 := t3.extract hib3
  generalize hab4 : ab3.eraseIdx kb = ab4 at t4 w6
  have l4 : ab4.length = 12 := by rw [← hab4, List.length_eraseIdx_of_lt kb_lt]; omega
  have w7 : WRun cfg p7 ((vb ^^^ gC va vb vc vd mx) :: gC va vb vc vd mx :: gD va vb vd mx ::
      gA va vb mx :: (ab4 ++ (tableWords ++ ms)))
      (gB va vb vc vd mx :: gC va vb vc vd mx :: gD va vb vd mx ::
      gA va vb mx :: (ab4 ++ (tableWords ++ ms))) := wrun_rrot hp7
  obtain ⟨p8, hp8⟩ := u32Add_exists (i := 0) (j := 3) (by omega)
  have w8 : WRun cfg p8 (gB va vb vc vd mx :: gC va vb vc vd mx :: gD va vb vd mx ::
      gA va vb mx :: (ab4 ++ (tableWords ++ ms)))
      ((gA va vb mx + gB va vb vc vd mx) :: gB va vb vc vd mx :: gC va vb vc vd mx ::
        gD va vb vd mx :: (ab4 ++ (tableWords ++ ms))) := by
    have := wrun_add (cfg := cfg) (ws := gB va vb vc vd mx :: gC va vb vc vd mx :: gD va vb vd mx ::
      gA va vb mx :: (ab4 ++ (tableWords ++ ms))) hp8 rfl rfl
      (by simp only [List.length_cons]; rw [List.length_append]; omega)
    rw [BitVec.add_comm] at this
    exact this
  -- m1
  have him1a := Env.without_ne (p := .state a) (k := ia) (by simp) him10
  have him1b := Env.without_ne (p := .state d) (k := kd) (by simp) him1a
  have him1c := Env.without_ne (p := .state c) (k := kc) (by simp) him1b
  obtain ⟨km1, him1⟩ : ∃ k, (((env.without (.state a) ia).without (.state d) kd).without (.state c)
      kc).without (.state b) kb (.message m1) = some k :=
    ⟨_, Env.without_ne (p := .state b) (k := kb) (by simp) him1c⟩
  obtain ⟨p9, hp9⟩ := u32Add_exists (i := km1 + 4) (j := 0) (by omega)
  have w9 : WRun cfg p9 ((gA va vb mx + gB va vb vc vd mx) :: gB va vb vc vd mx ::
        gC va vb vc vd mx :: gD va vb vd mx :: (ab4 ++ (tableWords ++ ms)))
      (gA' va vb vc vd mx my :: gB va vb vc vd mx :: gC va vb vc vd mx ::
        gD va vb vd mx :: (ab4 ++ (tableWords ++ ms))) := by
    have h1 : ((gA va vb mx + gB va vb vc vd mx) :: gB va vb vc vd mx :: gC va vb vc vd mx ::
        gD va vb vd mx :: (ab4 ++ (tableWords ++ ms)))[km1 + 4]? = some my := by
      rw [show km1 + 4 = (km1 + 1 + 1 + 1) + 1 from rfl, List.getElem?_cons_succ,
        List.getElem?_cons_succ, List.getElem?_cons_succ, List.getElem?_cons_succ,
        t4.sound _ _ him1]; simp only [ptrVal, hY]
    have := wrun_add (cfg := cfg) hp9 h1 rfl
      (by simp only [List.length_cons]; rw [List.length_append]; omega)
    rw [List.eraseIdx_cons_zero, BitVec.add_comm my] at this
    exact this
  obtain ⟨p10, hp10⟩ := u32Xor_exists (i := 0) (j := 3) (S := 16 + 1) (by omega) (by omega)
  obtain ⟨p11, hp11⟩ := u32Rrot_exists (n := 8) (by omega)
  obtain ⟨p14, hp14⟩ := u32Rrot_exists (n := 7) (by omega)
  have w10 : WRun cfg p10 (gA' va vb vc vd mx my :: gB va vb vc vd mx :: gC va vb vc vd mx ::
        gD va vb vd mx :: (ab4 ++ (tableWords ++ ms)))
      ((gD va vb vd mx ^^^ gA' va vb vc vd mx my) :: gA' va vb vc vd mx my :: gB va vb vc vd mx ::
        gC va vb vc vd mx :: (ab4 ++ (tableWords ++ ms))) := by
    have := wrun_xor (cfg := cfg) (ms := ms) (ab := gA' va vb vc vd mx my :: gB va vb vc vd mx ::
      gC va vb vc vd mx :: gD va vb vd mx :: ab4) hp10 rfl rfl
      (by simp only [List.length_cons]; omega) (by simp only [List.length_cons]; omega)
    rw [BitVec.xor_comm] at this
    exact this
  have w11 : WRun cfg p11 ((gD va vb vd mx ^^^ gA' va vb vc vd mx my) :: gA' va vb vc vd mx my ::
        gB va vb vc vd mx :: gC va vb vc vd mx :: (ab4 ++ (tableWords ++ ms)))
      (gD' va vb vc vd mx my :: gA' va vb vc vd mx my :: gB va vb vc vd mx ::
        gC va vb vc vd mx :: (ab4 ++ (tableWords ++ ms))) := wrun_rrot hp11
  have w12 : WRun cfg p8 (gD' va vb vc vd mx my :: gA' va vb vc vd mx my :: gB va vb vc vd mx ::
        gC va vb vc vd mx :: (ab4 ++ (tableWords ++ ms)))
      (gC' va vb vc vd mx my :: gD' va vb vc vd mx my :: gA' va vb vc vd mx my ::
        gB va vb vc vd mx :: (ab4 ++ (tableWords ++ ms))) := by
    have := wrun_add (cfg := cfg) (ws := gD' va vb vc vd mx my :: gA' va vb vc vd mx my ::
      gB va vb vc vd mx :: gC va vb vc vd mx :: (ab4 ++ (tableWords ++ ms))) hp8 rfl rfl
      (by simp only [List.length_cons]; rw [List.length_append]; omega)
    rw [BitVec.add_comm] at this
    exact this
  have w13 : WRun cfg p10 (gC' va vb vc vd mx my :: gD' va vb vc vd mx my ::
        gA' va vb vc vd mx my :: gB va vb vc vd mx :: (ab4 ++ (tableWords ++ ms)))
      ((gB va vb vc vd mx ^^^ gC' va vb vc vd mx my) :: gC' va vb vc vd mx my ::
        gD' va vb vc vd mx my :: gA' va vb vc vd mx my :: (ab4 ++ (tableWords ++ ms))) := by
    have := wrun_xor (cfg := cfg) (ms := ms) (ab := gC' va vb vc vd mx my ::
      gD' va vb vc vd mx my :: gA' va vb vc vd mx my :: gB va vb vc vd mx :: ab4) hp10 rfl rfl
      (by simp only [List.length_cons]; omega) (by simp only [List.length_cons]; omega)
    rw [BitVec.xor_comm] at this
    exact this
  have w14 : WRun cfg p14 ((gB va vb vc vd mx ^^^ gC' va vb vc vd mx my) ::
        gC' va vb vc vd mx my :: gD' va vb vc vd mx my :: gA' va vb vc vd mx my ::
        (ab4 ++ (tableWords ++ ms)))
      (gB' va vb vc vd mx my :: gC' va vb vc vd mx my :: gD' va vb vc vd mx my ::
        gA' va vb vc vd mx my :: (ab4 ++ (tableWords ++ ms))) := wrun_rrot hp14
  have t5 := (((t4.insert (i := a) (gA' va vb vc vd mx my)).insert (i := d)
    (gD' va vb vc vd mx my)).insert (i := c) (gC' va vb vc vd mx my)).insert (i := b)
    (gB' va vb vc vd mx my)
  refine ⟨p1 ++ (p2 ++ (p3 ++ (p4 ++ (p5 ++ (p6 ++ (p7 ++ (p8 ++ (p9 ++ (p10 ++ (p11 ++ (p8 ++
      (p10 ++ p14)))))))))))), _, _, ?_, ?_, ?_, t5.congr ?_, ?_⟩
  · unfold b3G
    simp only [hib, Env.extract_eq hia, hp1, Option.bind_eq_bind, Option.bind_some]
    change (Option.bind (env.without (.state a) ia (.message m0)) _) = _
    simp only [him0', Option.bind_some, hp2]
    change (Option.bind ((env.without (.state a) ia).extract (.state d)) _) = _
    simp only [Env.extract_eq hid, Option.bind_some, hp3, hp4]
    change (Option.bind (((env.without (.state a) ia).without (.state d) kd).extract (.state c)) _) = _
    simp only [Env.extract_eq hic, Option.bind_some, hp5]
    change (Option.bind ((((env.without (.state a) ia).without (.state d) kd).without (.state c)
      kc).extract (.state b)) _) = _
    simp only [Env.extract_eq hib3, Option.bind_some, hp6, hp7, hp8]
    change (Option.bind ((((env.without (.state a) ia).without (.state d) kd).without (.state c)
      kc).without (.state b) kb (.message m1)) _) = _
    simp only [him1, Option.bind_some, hp9, hp10, hp11, hp14]
    rfl
  · constructor
    · intro i hi
      obtain ⟨k, hk⟩ := f.some_st hi
      by_cases eb : i = b
      · exact Env.insert_isSome (.inr (by rw [eb]))
      apply Env.insert_isSome; left
      by_cases ec : i = c
      · exact Env.insert_isSome (.inr (by rw [ec]))
      apply Env.insert_isSome; left
      by_cases ed : i = d
      · exact Env.insert_isSome (.inr (by rw [ed]))
      apply Env.insert_isSome; left
      by_cases ea : i = a
      · exact Env.insert_isSome (.inr (by rw [ea]))
      apply Env.insert_isSome; left
      rw [Env.without_ne (by simpa using eb) (Env.without_ne (by simpa using ec)
        (Env.without_ne (by simpa using ed) (Env.without_ne (by simpa using ea) hk)))]
      rfl
    · intro i hi
      obtain ⟨k, hk⟩ := f.some_ms hi
      apply Env.insert_isSome; left
      apply Env.insert_isSome; left
      apply Env.insert_isSome; left
      apply Env.insert_isSome; left
      rw [Env.without_ne (by simp) (Env.without_ne (by simp)
        (Env.without_ne (by simp) (Env.without_ne (by simp) hk)))]
      rfl
    · intro i k hk
      rcases Env.insert_some hk with ⟨h, _⟩ | ⟨_, _, hk, _⟩
      · simp at h
      rcases Env.insert_some hk with ⟨h, _⟩ | ⟨_, _, hk, _⟩
      · simp at h
      rcases Env.insert_some hk with ⟨h, _⟩ | ⟨_, _, hk, _⟩
      · simp at h
      rcases Env.insert_some hk with ⟨h, _⟩ | ⟨_, _, hk, _⟩
      · simp at h
      obtain ⟨_, _, hk, _⟩ := Env.without_some hk
      obtain ⟨_, _, hk, _⟩ := Env.without_some hk
      obtain ⟨_, _, hk, _⟩ := Env.without_some hk
      obtain ⟨_, _, hk, _⟩ := Env.without_some hk
      exact f.msLt _ _ hk
  · simp only [List.length_cons, l4]
  · intro p _
    cases p with
    | message j => rfl
    | state j =>
      simp only [ptrVal, Ptr.state.injEq]
      rw [mix_getD hsv ha hb hc hd]
      simp only [hA, hB, hC, hD]
      by_cases e1 : j = b
      · subst e1; rw [if_pos rfl, if_neg hbd.symm, if_neg hbc.symm, if_pos rfl]
      by_cases e2 : j = c
      · subst e2; rw [if_neg e1, if_pos rfl, if_neg hcd.symm, if_pos rfl]
      by_cases e3 : j = d
      · subst e3; rw [if_neg e1, if_neg e2, if_pos rfl, if_pos rfl]
      by_cases e4 : j = a
      · subst e4; simp [hab', hac, had, hab'.symm, hac.symm, had.symm]
      · rw [if_neg e1, if_neg e2, if_neg e3, if_neg e4, if_neg (Ne.symm e3), if_neg (Ne.symm e2),
          if_neg (Ne.symm e1), if_neg (Ne.symm e4)]
  · exact w1.trans (w2.trans (w3.trans (w4.trans (w5.trans (w6.trans (w7.trans (w8.trans (w9.trans
      (w10.trans (w11.trans (w12.trans (w13.trans w14))))))))))))

end TapStark
