import Verif.Proofs.ExpressOps

/- Look-ups, hashing and sampling of the expression language; constants and inputs. -/

set_option linter.unusedSectionVars false
set_option linter.unusedSimpArgs false

namespace TapStark

open Stark (BB4 asBase4 mk4 exists_mk4)

variable {cfg : Cfg} {L : U31Lib} {ops : List Op} {m a : List Elem} {c : List Bool}
variable {env : Variable → Val} {as : List (List Kind)} {r : List Kind} {sizes : List Nat} {K : Variable → Kind}

/-! ### Look-up -/

theorem has_replicate {vs : List Val} {n : Nat} {k : Kind} (h : List.Forall₂ Val.Has vs (List.replicate n k)) :
    vs.length = n ∧ ∀ v ∈ vs, v.Has k := by
  induction n generalizing vs with
  | zero => cases h; exact ⟨rfl, fun _ h => by cases h⟩
  | succ n ih =>
    rw [List.replicate_succ] at h
    cases h with
    | cons h1 h2 =>
      obtain ⟨e, h3⟩ := ih h2
      refine ⟨by rw [List.length_cons, e], fun v hv => ?_⟩
      rcases List.mem_cons.mp hv with rfl | hv
      · exact h1
      · exact h3 v hv

theorem flatten_single {vs : List Val} (f : Val → Elem) (h : ∀ v ∈ vs, v.enc = [f v]) :
    (vs.map Val.enc).flatten = vs.map f := by
  induction vs with
  | nil => rfl
  | cons v vs ih =>
    rw [List.map_cons, List.flatten_cons, h v (List.mem_cons_self ..), ih fun w hw => h w (List.mem_cons_of_mem _ hw)]
    rfl

/-- The only element of a value of one element. -/
noncomputable def Val.elem (v : Val) : Elem := v.enc.headD []

theorem Val.Has.single {v : Val} {k : Kind} (h : v.Has k) (hk : k.size = 1) : v.enc = [v.elem] := by
  have := h.length
  rw [hk] at this
  unfold Val.elem
  match hv : v.enc, this with
  | [x], _ => rfl

theorem lookup_ok {fs len : Nat} (ht : (Opc.lookup fs len).Types K as r) (hs : SizesOk (.lookup fs len) as sizes) :
    ScriptOk cfg L env (.lookup fs len) as r sizes := by
  obtain ⟨k, B, rfl, hB, hk, rfl, rfl⟩ := ht
  have hsz : ∃ y, sizes = [1, y] := by
    have h1 := hs.2 (.inr ⟨1, len, rfl⟩)
    cases hs.1 with
    | cons _ h2 =>
      cases h2 with
      | cons _ h3 =>
        cases h3
        exact ⟨_, by rw [h1 _ (List.mem_cons_self ..)]⟩
  obtain ⟨y, rfl⟩ := hsz
  refine ⟨opLookup len, k.size, ?_, k.size_le, fun args ha => ?_⟩
  · rw [Opc.emit, if_pos ⟨rfl, by decide⟩, hk]
    simp
  obtain ⟨tab, w, rfl, h1, h2⟩ := forall₂_two ha
  obtain ⟨x, rfl, hx⟩ := has_one h2
  obtain ⟨x, rfl, hxB, hx31⟩ := hx.nat
  obtain ⟨hl, ht⟩ := has_replicate h1
  have hlt : x < tab.length := by omega
  refine computes_one (v := tab[x]) ?_ (ht _ (List.getElem_mem hlt)) ?_
  · simp [Opc.denote, List.getElem?_eq_getElem hlt]
  · have e1 : stackVals [tab, [.nat x]] = num x :: tab.map Val.elem := by
      rw [← flatten_single Val.elem fun v hv => (ht v hv).single hk]
      simp [stackVals, Val.enc]
    rw [e1, (ht _ (List.getElem_mem hlt)).single hk]
    intro m a c ops h
    have := run_opLookup (cfg := cfg) (ops := ops) (m := m) (a := a) (c := c) (t := tab.map Val.elem) (i := x)
      (e := tab[x].elem) (by omega) (by
        rw [List.getElem?_append_left (by simpa using hlt), List.getElem?_map, List.getElem?_eq_getElem hlt]; rfl) h
    rw [List.length_map, hl] at this
    exact this

/-! ### BLAKE3 -/

theorem has_byte {v : Val} (h : v.Has (.nat 256)) : v.enc = [num ((UInt8.ofNat v.toNat).toNat : Nat)] := by
  obtain ⟨n, rfl, h1, _⟩ := h.nat
  show [num (n : Int)] = _
  rw [UInt8.toNat_ofNat', Nat.mod_eq_of_lt (by exact h1)]
  rfl

theorem stack_bytes {vs : List Val} (h : ∀ v ∈ vs, v.Has (.nat 256)) :
    (vs.map Val.enc).flatten = bytesElems (vs.map fun v => UInt8.ofNat v.toNat) := by
  rw [flatten_single (fun v => num ((UInt8.ofNat v.toNat).toNat : Nat)) fun v hv => has_byte (h v hv), bytesElems,
    List.map_map]
  rfl

theorem does_blake3 {p : List Op} (hp : blake3Script = some p) (bs : List UInt8) (hl : bs.length = 64) :
    Does cfg p (bytesElems bs) (wordsElems (Blake3.hash bs).reverse) := by
  intro m a c ops h
  have h1 : Blake3.hash bs = Blake3.compress Blake3.iv (Blake3.blockWords bs) 64 11 := by
    have hn : Blake3.numBlocks bs.length = 0 + 1 := by rw [hl]; rfl
    unfold Blake3.hash
    rw [hn, Blake3.chain, hn]
    simp only [Nat.mul_zero, List.drop_zero, List.take_of_length_le (by omega : bs.length ≤ 64), hl]
    rfl
  have h2 : bytesElems bs = wordsElems (Blake3.blockWords bs) := by
    rw [wordsElems_blockWords bs 0 (by omega)]; simp
  rw [h1, h2]
  exact run_blake3 hp _ (blockWords_length _) h

theorem does_op4roll {ws : List (BitVec 32)} {w : BitVec 32} {n : Nat} (hn : n = 4 * ws.length) (hs : n < 1000) :
    Does cfg (.num (n : Nat) :: op4roll) (wordsElems (ws ++ [w])) (wordsElems (w :: ws)) := by
  intro m a c ops h
  rw [List.cons_append, run_num _ h]
  have := run_op4roll (cfg := cfg) (ops := ops) (a := a) (c := c) (n := n) (wordsElems ws) (num (byteOf w 0))
    (num (byteOf w 1)) (num (byteOf w 2)) (num (byteOf w 3)) m h (by rw [wordsElems_length]; omega) (by omega)
  have e : wordsElems (ws ++ [w]) ++ m = wordsElems ws ++ num (byteOf w 0) :: num (byteOf w 1) :: num (byteOf w 2) ::
      num (byteOf w 3) :: m := by
    simp [wordsElems, wordElems]
  rw [e]
  refine this.trans ?_
  simp [wordsElems, wordElems]

theorem does_reverse_words : ∀ (n : Nat) (ws : List (BitVec 32)), n + 1 = ws.length → n < 100 →
    Does cfg ((List.range n).flatMap fun i => .num ((i + 1) * 4 : Nat) :: op4roll) (wordsElems ws.reverse)
      (wordsElems ws) := by
  intro n
  induction n with
  | zero =>
    intro ws hl _
    match ws, hl with
    | [w], _ => exact Does.nil
  | succ n ih =>
    intro ws hl hn
    match ws, hl with
    | w :: ws, hl =>
      rw [List.range_succ, List.flatMap_append, List.reverse_cons]
      have hl' : n + 1 = ws.length := by simpa using hl
      have h1 := (ih ws hl' (by omega)).frame (wordElems w)
      have e1 : wordsElems (ws.reverse ++ [w]) = wordsElems ws.reverse ++ wordElems w := by simp [wordsElems]
      have e2 : wordsElems (ws ++ [w]) = wordsElems ws ++ wordElems w := by simp [wordsElems]
      rw [e1]
      refine h1.seq ?_
      rw [← e2]
      have := does_op4roll (cfg := cfg) (ws := ws) (w := w) (n := (n + 1) * 4) (by omega) (by omega)
      simpa using this

theorem hash_length (bs : List UInt8) (hl : bs.length = 64) : (Blake3.hash bs).length = 8 := by
  have h1 : Blake3.hash bs = Blake3.compress Blake3.iv (Blake3.blockWords bs) 64 11 := by
    have hn : Blake3.numBlocks bs.length = 0 + 1 := by rw [hl]; rfl
    unfold Blake3.hash
    rw [hn, Blake3.chain, hn]
    simp only [Nat.mul_zero, List.drop_zero, List.take_of_length_le (by omega : bs.length ≤ 64), hl]
    rfl
  rw [h1, compress_length]

theorem hashBytes_length (bs : List UInt8) (hl : bs.length = 64) : (Blake3.hashBytes bs).length = 32 := by
  have := hash_length bs hl
  unfold Blake3.hashBytes
  rw [List.length_flatMap]
  simp [this]

theorem hashBytes_lt (bs : List UInt8) : ∀ n ∈ Blake3.hashBytes bs, n < 256 := by
  intro n hn
  unfold Blake3.hashBytes at hn
  obtain ⟨w, _, hw⟩ := List.mem_flatMap.mp hn
  simp only [List.mem_cons, List.not_mem_nil, or_false] at hw
  rcases hw with rfl | rfl | rfl | rfl <;> exact byteOf_lt _ _

theorem hashBytes_enc (bs : List UInt8) : (((Blake3.hashBytes bs).map Val.nat).map Val.enc).flatten =
    wordsElems (Blake3.hash bs) := by
  unfold Blake3.hashBytes wordsElems
  generalize Blake3.hash bs = ws
  induction ws with
  | nil => rfl
  | cons w ws ih => simp only [List.flatMap_cons, List.map_append, List.flatten_append, ih]; rfl

theorem args_bytes : ∀ {args : List (List Val)} {as : List (List Kind)},
    List.Forall₂ (List.Forall₂ Val.Has) args as → (∀ ks ∈ as, ∀ k ∈ ks, ∃ B, B ≤ 256 ∧ k = .nat B) →
    (args.flatten).length = (as.map List.length).sum ∧ ∀ v ∈ args.flatten, v.Has (.nat 256) := by
  intro args as h
  induction h with
  | nil => intro _; exact ⟨rfl, fun _ h => by cases h⟩
  | @cons vs ks args as h1 h2 ih =>
    intro hk
    obtain ⟨e, hv⟩ := ih fun ks hks => hk ks (List.mem_cons_of_mem _ hks)
    refine ⟨?_, fun v hv' => ?_⟩
    · rw [List.flatten_cons, List.length_append, e, h1.length_eq]; rfl
    · rw [List.flatten_cons] at hv'
      rcases List.mem_append.mp hv' with h | h
      · have hks := hk ks (List.mem_cons_self ..)
        clear hk ih hv h2 e hv'
        induction h1 with
        | nil => cases h
        | cons h3 h4 ih =>
          rcases List.mem_cons.mp h with rfl | h
          · obtain ⟨B, hB, rfl⟩ := hks _ (List.mem_cons_self ..)
            obtain ⟨n, rfl, h5, h6⟩ := h3.nat
            exact ⟨Nat.lt_of_lt_of_le h5 hB, h6⟩
          · exact ih h fun k hk => hks k (List.mem_cons_of_mem _ hk)
      · exact hv v h

theorem has_map_replicate {α : Type} {l : List α} {f : α → Val} {k : Kind} {n : Nat} (hl : l.length = n)
    (h : ∀ x ∈ l, (f x).Has k) : List.Forall₂ Val.Has (l.map f) (List.replicate n k) := by
  subst hl
  induction l with
  | nil => exact .nil
  | cons x l ih =>
    exact .cons (h x (List.mem_cons_self ..)) (ih fun y hy => h y (List.mem_cons_of_mem _ hy))

theorem blake3_ok (ht : Opc.blake3.Types K as r) (hs : SizesOk .blake3 as sizes) :
    ScriptOk cfg L env .blake3 as r sizes := by
  obtain ⟨hal, hak, rfl⟩ := ht
  have hsz : sizes.length = 33 := by
    rw [← hs.1.length_eq, ← List.length_map (f := List.length), hal]; rfl
  obtain ⟨p, hp⟩ := blake3Script_exists
  have hp' : Opc.blake3Perm = some (p ++ (List.range 7).flatMap fun i => .num ((i + 1) * 4 : Nat) :: op4roll) := by
    unfold Opc.blake3Perm; rw [hp]; rfl
  refine ⟨p ++ (List.range 7).flatMap fun i => .num ((i + 1) * 4 : Nat) :: op4roll, 1, ?_, by decide,
    fun args ha => ?_⟩
  · rw [Opc.emit, if_pos hsz, hp', hal]
    rfl
  have ha' := args_bytes ha hak
  have hlen : args.reverse.flatten.length = 64 := by
    have e := ha'.1
    rw [List.length_flatten, List.map_reverse, List.sum_reverse, ← List.length_flatten, e, hal]
    rfl
  have hb : ∀ v ∈ args.reverse.flatten, v.Has (.nat 256) := by
    intro v hv
    apply ha'.2
    obtain ⟨l, hl, hv⟩ := List.mem_flatten.mp hv
    exact List.mem_flatten.mpr ⟨l, List.mem_reverse.mp hl, hv⟩
  have hbl : (args.reverse.flatten.map fun v => UInt8.ofNat v.toNat).length = 64 := by rw [List.length_map, hlen]
  refine computes_some (outs := (Blake3.hashBytes (args.reverse.flatten.map fun v => UInt8.ofNat v.toNat)).map Val.nat)
    ?_ ?_ ?_ ?_
  · rfl
  · exact has_map_replicate (hashBytes_length _ hbl) fun n hn =>
      ⟨hashBytes_lt _ n hn, Nat.lt_trans (hashBytes_lt _ n hn) (by decide)⟩
  · intro o ho
    obtain ⟨n, _, rfl⟩ := List.mem_map.mp ho
    rfl
  · rw [hashBytes_enc, stackVals, stack_bytes hb]
    refine (does_blake3 hp _ hbl).seq ?_
    exact does_reverse_words 7 _ (by rw [hash_length _ hbl]) (by decide)

/-! ### Sampling -/

theorem does_sampleWord (hL : L.Ok cfg) (w : BitVec 32) :
    Does cfg (u32Compress ++ u32ToU31 0x78000001 L.sub) (wordElems w) [encB (sampleValue w.toNat)] := by
  intro m a c ops h
  have hs : SubReduces cfg 0x78000001 L.sub := fun x m a c ops hx h => hL.subReduces x hx m a c ops h
  rw [List.append_assoc, run_u32Compress w h]
  have hlt : w.toNat < 4294967296 := w.isLt
  have enc : ∀ n : Nat, encB (n : BB) = num (n % 0x78000001 : Nat) := by
    intro n; unfold encB; rw [ZMod.val_natCast]
  unfold signMag sampleValue
  split
  · rename_i hw
    rw [if_neg (by omega : ¬ w.toNat = 2 ^ 31), enc]
    exact run_u32ToU31 hs hw h hL.deadSub
  · rename_i hge
    by_cases hm : w.toNat = 2 ^ 31
    · rw [if_pos hm, show -((w.toNat : Int) - 2147483648) = ((0 : Nat) : Int) by omega]
      exact run_u32ToU31 hs (x := 0) (by decide) h hL.deadSub
    · rw [if_neg hm, enc, show (w.toNat : Int) - 2147483648 = (w.toNat - 2147483648 : Nat) by omega]
      have := run_u32ToU31_neg (cfg := cfg) (m := m) (a := a) (c := c) (ops := ops) hs (x := w.toNat - 2147483648)
        (by omega) (by omega) h
      rw [show 2147483648 + (w.toNat - 2147483648) = w.toNat by omega] at this
      exact this

theorem run_sampleWords (hL : L.Ok cfg) (h : live c = true) : ∀ (ws : List (BitVec 32)) {a : List Elem},
    run cfg (emitN ws.length (u32Compress ++ u32ToU31 0x78000001 L.sub ++ [.toAlt]) ++ ops) ⟨wordsElems ws ++ m, a, c⟩ =
      run cfg ops ⟨m, (ws.map fun w => encB (sampleValue w.toNat)).reverse ++ a, c⟩ := by
  intro ws
  induction ws with
  | nil => intro a; rfl
  | cons w ws ih =>
    intro a
    rw [List.length_cons, emitN_succ, List.append_assoc, List.append_assoc _ [Op.toAlt], wordsElems_cons,
      List.append_assoc (wordElems w), does_sampleWord hL w _ _ _ _ h, List.singleton_append, List.singleton_append,
      run_toAlt _ h, ih]
    simp

theorem does_roll1 {xs : List Elem} {x : Elem} {n : Nat} (hn : n = xs.length) (hs : n < 1000) :
    Does cfg [.num (n : Nat), .roll] (xs ++ [x]) (x :: xs) := by
  intro m a c ops h
  rw [List.cons_append, run_num _ h]
  have h2 := run_roll_some (cfg := cfg) (a := a) (c := c) (ops := ops) (m := xs ++ x :: m) (n := (n : Int)) (k := n)
    (x := x) h rfl (by subst hn; simp) (by omega)
  rw [show (xs ++ [x]) ++ m = xs ++ x :: m by simp]
  refine h2.trans ?_
  congr 2
  subst hn
  simp [List.eraseIdx_append_of_length_le]

theorem does_reverse : ∀ (n : Nat) (xs : List Elem), n + 1 = xs.length → n < 100 →
    Does cfg ((List.range n).flatMap fun i => [.num (i + 1 : Nat), .roll]) xs.reverse xs := by
  intro n
  induction n with
  | zero =>
    intro xs hl _
    match xs, hl with
    | [x], _ => exact Does.nil
  | succ n ih =>
    intro xs hl hn
    match xs, hl with
    | x :: xs, hl =>
      rw [List.range_succ, List.flatMap_append, List.reverse_cons]
      have hl' : n + 1 = xs.length := by simpa using hl
      refine ((ih xs hl' (by omega)).frame [x]).seq ?_
      have := does_roll1 (cfg := cfg) (xs := xs) (x := x) (n := n + 1) hl' (by omega)
      simpa using this

theorem does_toSample (hL : L.Ok cfg) (ws : List (BitVec 32)) (hw : ws.length = 8) :
    Does cfg (Opc.toSampleScript L) (wordsElems ws) (ws.map fun w => encB (sampleValue w.toNat)).reverse := by
  intro m a c ops h
  unfold Opc.toSampleScript
  have h1 := run_sampleWords (cfg := cfg) (m := m) (a := a) (ops := emitN 8 [.fromAlt] ++
    (((List.range 7).flatMap fun i => [.num (i + 1 : Nat), .roll]) ++ ops)) hL h ws
  rw [hw] at h1
  simp only [List.append_assoc] at h1 ⊢
  rw [h1]
  have h2 := run_fromAlts' (cfg := cfg) (c := c) (a := a) (m := m) (ops := ((List.range 7).flatMap fun i =>
    [.num (i + 1 : Nat), .roll]) ++ ops) (ws.map fun w => encB (sampleValue w.toNat)).reverse h
  rw [List.length_reverse, List.length_map, hw] at h2
  rw [h2]
  exact does_reverse 7 _ (by simp [hw]) (by decide) m a c ops h

theorem getD_map_toNat (vs : List Val) (i : Nat) (hb : ∀ v ∈ vs, v.Has (.nat 256)) :
    (vs.map Val.toNat).getD i 0 = Blake3.byteAt (vs.map fun v => UInt8.ofNat v.toNat) i := by
  unfold Blake3.byteAt
  simp only [List.getD_eq_getElem?_getD, List.getElem?_map]
  cases hv : vs[i]? with
  | none => rfl
  | some v =>
    obtain ⟨n, rfl, h1, _⟩ := (hb v (List.mem_of_getElem? hv)).nat
    simp only [Option.map_some, Option.getD_some, Val.toNat, UInt8.toNat_ofNat']
    exact (Nat.mod_eq_of_lt h1).symm

theorem wordAt_eq (vs : List Val) (i : Nat) (hb : ∀ v ∈ vs, v.Has (.nat 256)) :
    wordAt (vs.map Val.toNat) i = (Blake3.wordAt (vs.map fun v => UInt8.ofNat v.toNat) i).toNat := by
  have h0 := byteAt_lt (vs.map fun v => UInt8.ofNat v.toNat) (4 * i)
  have h1 := byteAt_lt (vs.map fun v => UInt8.ofNat v.toNat) (4 * i + 1)
  have h2 := byteAt_lt (vs.map fun v => UInt8.ofNat v.toNat) (4 * i + 2)
  have h3 := byteAt_lt (vs.map fun v => UInt8.ofNat v.toNat) (4 * i + 3)
  unfold wordAt
  rw [getD_map_toNat vs _ hb, getD_map_toNat vs _ hb, getD_map_toNat vs _ hb, getD_map_toNat vs _ hb, Blake3.wordAt,
    BitVec.toNat_ofNat, Nat.mod_eq_of_lt]
  omega

theorem toSample_ok (hL : L.Ok cfg) (ht : Opc.toSample.Types K as r) (hs : SizesOk .toSample as sizes) :
    ScriptOk cfg L env .toSample as r sizes := by
  obtain ⟨rfl, rfl⟩ := ht
  obtain ⟨n, rfl⟩ := sizes_single hs
  refine ⟨_, 1, rfl, by decide, fun args ha => ?_⟩
  obtain ⟨bs, rfl, h1⟩ := forall₂_one ha
  obtain ⟨hl, hb⟩ := has_replicate h1
  refine computes_some (outs := (List.range 8).reverse.map fun i =>
      .nat (sampleValue (wordAt (bs.map Val.toNat) i)).val) rfl ?_ ?_ ?_
  · exact has_map_replicate rfl fun _ _ => ⟨val_lt' _, Nat.lt_trans (val_lt' _) (by decide)⟩
  · intro o ho
    obtain ⟨i, _, rfl⟩ := List.mem_map.mp ho
    rfl
  · have e1 : stackVals [bs] = wordsElems ((List.range 8).map (Blake3.wordAt (bs.map fun v => UInt8.ofNat v.toNat))) := by
      rw [wordsElems_wordAt 8 _ (by rw [List.length_map, hl]), ← stack_bytes hb]
      simp [stackVals]
    have := does_toSample (cfg := cfg) hL
      ((List.range 8).map (Blake3.wordAt (bs.map fun v => UInt8.ofNat v.toNat))) (by simp)
    rw [e1]
    have e2 : ((List.map (fun i => Val.nat (sampleValue (wordAt (bs.map Val.toNat) i)).val)
        (List.range 8).reverse).map Val.enc).flatten =
        (((List.range 8).map (Blake3.wordAt (bs.map fun v => UInt8.ofNat v.toNat))).map
          fun w => encB (sampleValue w.toNat)).reverse := by
      rw [List.map_map, ← List.map_reverse, ← List.map_reverse, List.map_map]
      generalize (List.range 8).reverse = is
      induction is with
      | nil => rfl
      | cons i is ih =>
        rw [List.map_cons, List.flatten_cons, ih, List.map_cons]
        simp only [Function.comp_apply, Val.enc, FVal.enc, wordAt_eq bs i hb]
        rfl
    rw [e2]
    exact this

theorem list_eight {α : Type} {l : List α} (h : l.length = 8) : ∃ x0 x1 x2 x3 x4 x5 x6 x7,
    l = [x0, x1, x2, x3, x4, x5, x6, x7] := by
  match l, h with
  | [x0, x1, x2, x3, x4, x5, x6, x7], _ => exact ⟨x0, x1, x2, x3, x4, x5, x6, x7, rfl⟩

theorem Val.Has.base {v : Val} (h : v.Has .base) : ∃ x : BB, v = .nat x.val := by
  obtain ⟨n, rfl, h1, _⟩ := h.nat
  exact ⟨n, by rw [ZMod.val_natCast, Nat.mod_eq_of_lt h1]⟩

theorem args_eight {args : List (List Val)}
    (h : List.Forall₂ (List.Forall₂ Val.Has) args [List.replicate 8 .base]) : ∃ x0 x1 x2 x3 x4 x5 x6 x7 : BB,
    args = [[.nat x0.val, .nat x1.val, .nat x2.val, .nat x3.val, .nat x4.val, .nat x5.val, .nat x6.val,
      .nat x7.val]] := by
  obtain ⟨bs, rfl, h1⟩ := forall₂_one h
  obtain ⟨hl, hb⟩ := has_replicate h1
  obtain ⟨x0, x1, x2, x3, x4, x5, x6, x7, rfl⟩ := list_eight hl
  obtain ⟨y0, rfl⟩ := (hb x0 (by simp)).base
  obtain ⟨y1, rfl⟩ := (hb x1 (by simp)).base
  obtain ⟨y2, rfl⟩ := (hb x2 (by simp)).base
  obtain ⟨y3, rfl⟩ := (hb x3 (by simp)).base
  obtain ⟨y4, rfl⟩ := (hb x4 (by simp)).base
  obtain ⟨y5, rfl⟩ := (hb x5 (by simp)).base
  obtain ⟨y6, rfl⟩ := (hb x6 (by simp)).base
  obtain ⟨y7, rfl⟩ := (hb x7 (by simp)).base
  exact ⟨y0, y1, y2, y3, y4, y5, y6, y7, rfl⟩

theorem sampleBase_ok (ht : Opc.sampleBase.Types K as r) (hs : SizesOk .sampleBase as sizes) :
    ScriptOk cfg L env .sampleBase as r sizes := by
  obtain ⟨rfl, rfl⟩ := ht
  obtain ⟨n, rfl⟩ := sizes_single hs
  obtain rfl := hs.2 (.inl rfl) n (List.mem_singleton_self _)
  refine ⟨_, Kind.base.size, rfl, by decide, fun args ha => ?_⟩
  obtain ⟨x0, x1, x2, x3, x4, x5, x6, x7, rfl⟩ := args_eight ha
  refine computes_one (v := .ofF (.base x0)) rfl (FVal.has (.inr rfl) rfl) ?_
  intro m a c ops h
  show run cfg (Opc.sampleBaseScript ++ ops) ⟨encB x0 :: encB x1 :: encB x2 :: encB x3 :: encB x4 :: encB x5 ::
    encB x6 :: encB x7 :: m, a, c⟩ = run cfg ops ⟨encB x0 :: m, a, c⟩
  unfold Opc.sampleBaseScript
  simp only [emitN_succ, emitN_none]
  sexec

theorem sampleExt_ok (ht : Opc.sampleExt.Types K as r) (hs : SizesOk .sampleExt as sizes) :
    ScriptOk cfg L env .sampleExt as r sizes := by
  obtain ⟨rfl, rfl⟩ := ht
  obtain ⟨n, rfl⟩ := sizes_single hs
  refine ⟨_, Kind.ext.size, rfl, by decide, fun args ha => ?_⟩
  obtain ⟨x0, x1, x2, x3, x4, x5, x6, x7, rfl⟩ := args_eight ha
  refine computes_one (v := .ext (mk4 x0 x1 x2 x3)) ?_ trivial ?_
  · simp only [Opc.denote, ZMod.natCast_zmod_val]
  intro m a c ops h
  show run cfg (Opc.sampleExtScript ++ ops) ⟨encB x0 :: encB x1 :: encB x2 :: encB x3 :: encB x4 :: encB x5 ::
    encB x6 :: encB x7 :: m, a, c⟩ = run cfg ops ⟨encE (mk4 x0 x1 x2 x3) ++ m, a, c⟩
  unfold Opc.sampleExtScript
  rw [List.append_assoc, List.append_assoc, run_op4toAlt h, run_op4drop h, run_op4fromAlt h, encE_mk4]
  rfl

/-! ### Constants -/

theorem constVal_one {v : Nat} (h : v < 2 ^ 31) : constVal [v] = some (.nat v) := by
  simp only [constVal, if_pos h]

theorem constVal_four {a b c d : Nat} (h : a < bbP ∧ b < bbP ∧ c < bbP ∧ d < bbP) :
    constVal [a, b, c, d] = some (.ext (mk4 a b c d)) := by
  simp only [constVal, if_pos h]

theorem constVal_ok {vs : List Nat} {v : Val} (h : constVal vs = some v) :
    v.enc = vs.map (fun (n : Nat) => num n) ∧ vs.length ≤ 4 := by
  have enc : ∀ n : Nat, n < bbP → encB (n : BB) = num (n : Nat) := by
    intro n hn; unfold encB; rw [ZMod.val_natCast, Nat.mod_eq_of_lt hn]
  unfold constVal at h
  split at h
  · split at h
    · cases h; exact ⟨rfl, by simp⟩
    · cases h
  · split at h
    · rename_i hh
      cases h
      refine ⟨?_, by simp⟩
      show encE _ = _
      rw [encE_mk4, enc _ hh.1, enc _ hh.2.1, enc _ hh.2.2.1, enc _ hh.2.2.2]
      rfl
    · cases h
  · cases h

theorem table_ok : ∀ {es : List (List Nat)} {r : List Kind},
    List.Forall₂ (fun vs k => ∃ v, constVal vs = some v ∧ v.Has k) es r →
    ∃ outs, es.mapM constVal = some outs ∧ List.Forall₂ Val.Has outs r ∧
      outs.map Val.enc = es.map (fun x => x.map fun (n : Nat) => num n) ∧ ∀ x ∈ es, x.length ≤ 4 := by
  intro es r h
  induction h with
  | nil => exact ⟨[], rfl, .nil, rfl, fun _ h => by cases h⟩
  | @cons vs k es r h1 h2 ih =>
    obtain ⟨outs, e1, h3, e2, h4⟩ := ih
    obtain ⟨v, hv, h5⟩ := h1
    obtain ⟨e3, h6⟩ := constVal_ok hv
    refine ⟨v :: outs, ?_, .cons h5 h3, by rw [List.map_cons, List.map_cons, e2, e3], ?_⟩
    · rw [List.mapM_cons, e1, hv]
      rfl
    · intro x hx
      rcases List.mem_cons.mp hx with rfl | hx
      · exact h6
      · exact h4 x hx

/-! ### Summary -/

/-- Operations that neither read an input nor push constants. -/
def Opc.isScript : Opc → Bool
  | .constant _ | .table _ | .inputMove _ | .inputCopy _ => false
  | _ => true

theorem script_ok (hL : L.Ok cfg) {opc : Opc} (h : opc.isScript = true) (ht : opc.Types K as r)
    (hs : SizesOk opc as sizes) : ScriptOk cfg L env opc as r sizes := by
  cases opc with
  | add => exact add_ok hL ht hs
  | mul => exact mul_ok hL ht hs
  | sub => exact sub_ok hL ht hs
  | neg => exact neg_ok hL ht hs
  | equal => exact equal_ok hL ht hs
  | equalVerify => exact equalVerify_ok hL ht hs
  | numToField => exact numToField_ok hL ht hs
  | fieldToNum => exact fieldToNum_ok ht hs
  | extractHighBits len => exact extractHighBits_ok ht hs
  | constant vs => cases h
  | expConst fs power => exact expConst_ok hL ht hs
  | indexToRou F bits => exact indexToRou_ok hL ht hs
  | lookup fs len => exact lookup_ok ht hs
  | inputMove v => cases h
  | inputCopy v => cases h
  | table es => cases h
  | square => exact square_ok hL ht hs
  | double => exact double_ok hL ht hs
  | blake3 => exact blake3_ok ht hs
  | toSample => exact toSample_ok hL ht hs
  | sampleBase => exact sampleBase_ok ht hs
  | sampleExt => exact sampleExt_ok ht hs
  | reverseBitslen bits => exact reverseBitslen_ok ht hs
  | fourU32ToU32 => exact fourU32ToU32_ok ht hs

/-- The number of operands and results. -/
theorem types_num {opc : Opc} (ht : opc.Types K as r) :
    as.length = opc.inNum ∧ (opc.outNum = none ∨ opc.outNum = some r.length) := by
  cases opc with
  | add => obtain ⟨_, _, rfl, _, _, rfl⟩ := ht; exact ⟨rfl, .inr rfl⟩
  | mul => obtain ⟨_, _, rfl, _, _, rfl⟩ := ht; exact ⟨rfl, .inr rfl⟩
  | sub => obtain ⟨_, _, rfl, _, _, rfl⟩ := ht; exact ⟨rfl, .inr rfl⟩
  | neg => obtain ⟨_, rfl, _, rfl⟩ := ht; exact ⟨rfl, .inr rfl⟩
  | equal => obtain ⟨_, _, rfl, _, rfl⟩ := ht; exact ⟨rfl, .inr rfl⟩
  | equalVerify => obtain ⟨_, _, rfl, _, rfl⟩ := ht; exact ⟨rfl, .inr rfl⟩
  | numToField => obtain ⟨_, rfl, rfl⟩ := ht; exact ⟨rfl, .inr rfl⟩
  | fieldToNum => obtain ⟨_, rfl, rfl⟩ := ht; exact ⟨rfl, .inr rfl⟩
  | extractHighBits len => obtain ⟨_, rfl, _, _, rfl⟩ := ht; exact ⟨rfl, .inr rfl⟩
  | constant vs => obtain ⟨rfl, _, _, rfl, _⟩ := ht; exact ⟨rfl, .inr rfl⟩
  | expConst fs power => obtain ⟨_, rfl, _, _, _, rfl⟩ := ht; exact ⟨rfl, .inr rfl⟩
  | indexToRou F bits => obtain ⟨_, rfl, _, ⟨_, rfl⟩ | ⟨_, rfl⟩⟩ := ht <;> exact ⟨rfl, .inr rfl⟩
  | lookup fs len => obtain ⟨_, _, rfl, _, _, _, rfl⟩ := ht; exact ⟨rfl, .inr rfl⟩
  | inputMove v => obtain ⟨rfl, rfl⟩ := ht; exact ⟨rfl, .inr rfl⟩
  | inputCopy v => obtain ⟨rfl, rfl⟩ := ht; exact ⟨rfl, .inr rfl⟩
  | table es => exact ⟨by rw [ht.1]; rfl, .inl rfl⟩
  | square => obtain ⟨_, rfl, _, rfl⟩ := ht; exact ⟨rfl, .inr rfl⟩
  | double => obtain ⟨_, rfl, _, rfl⟩ := ht; exact ⟨rfl, .inr rfl⟩
  | blake3 =>
    obtain ⟨h, _, rfl⟩ := ht
    exact ⟨by rw [← List.length_map (f := List.length), h]; rfl, .inr rfl⟩
  | toSample => obtain ⟨rfl, rfl⟩ := ht; exact ⟨rfl, .inr rfl⟩
  | sampleBase => obtain ⟨rfl, rfl⟩ := ht; exact ⟨rfl, .inr rfl⟩
  | sampleExt => obtain ⟨rfl, rfl⟩ := ht; exact ⟨rfl, .inr rfl⟩
  | reverseBitslen bits => obtain ⟨_, rfl, _, _, rfl⟩ := ht; exact ⟨rfl, .inr rfl⟩
  | fourU32ToU32 => obtain ⟨rfl, rfl⟩ := ht; exact ⟨rfl, .inr rfl⟩

end TapStark
