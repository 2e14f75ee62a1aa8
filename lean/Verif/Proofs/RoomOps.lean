import Verif.Proofs.Room
import Verif.Proofs.Limits
import Verif.Proofs.Tracker

/- The room of the operations, of the fragments of the tracker, and of compiled expressions. -/

set_option linter.unusedSectionVars false
set_option linter.unusedSimpArgs false

namespace TapStark

/-- The analysis finds a room of at most `r`. -/
def fitsBy (p : List Op) (n r : Nat) : Bool :=
  match scan p ⟨n, n, n, []⟩ with
  | some a => a.lv.isEmpty && decide (a.peak ≤ n + r)
  | none => false

theorem Fit.of {p : List Op} {n r : Nat} (h : fitsBy p n r = true) : Fit p n r := by
  unfold fitsBy at h
  split at h
  · rename_i a ha
    obtain ⟨c, k, t, lv⟩ := a
    rw [Bool.and_eq_true, List.isEmpty_iff] at h
    obtain ⟨h1, h2⟩ := h
    simp only at h1
    subst h1
    exact (Eff.of_scan ha).fit (by simpa using h2)
  · cases h

theorem Fit.of_uses {p : List Op} {n o r : Nat} (h : Uses p n o r) : Fit p n r := by
  obtain ⟨k, t, hk, h⟩ := h
  exact h.fit hk

theorem Eff.uses {p : List Op} {n o k t r : Nat} (h : Eff p n o k t) (hr : k ≤ n + r) : Uses p n o r := ⟨k, t, hr, h⟩

/-- The analysis, for given numbers. -/
def usesBy (p : List Op) (n o r : Nat) : Bool :=
  match scan p ⟨n, n, n, []⟩ with
  | some a => a.lv.isEmpty && decide (a.cur = o ∧ a.peak ≤ n + r)
  | none => false

theorem Uses.of {p : List Op} {n o r : Nat} (h : usesBy p n o r = true) : Uses p n o r := by
  unfold usesBy at h
  split at h
  · rename_i a ha
    obtain ⟨c, k, t, lv⟩ := a
    rw [Bool.and_eq_true, List.isEmpty_iff] at h
    obtain ⟨h1, h2⟩ := h
    simp only [decide_eq_true_eq] at h1 h2
    obtain ⟨rfl, h2⟩ := h2
    subst h1
    exact ⟨k, t, h2, Eff.of_scan ha⟩
  · cases h

/-- One fragment after the other. -/
theorem Uses.seq {p q : List Op} {n m r n' m' r' : Nat} (hp : Uses p n m r) (hq : Uses q n' m' r') (i j : Nat)
    {N O R : Nat} (e : m + i = n' + j) (h1 : n + i = N) (h2 : m' + j = O) (h3 : r ≤ R) (h4 : n' + j + r' ≤ N + R) :
    Uses (p ++ q) N O R := by
  obtain ⟨k, t, hk, hp⟩ := hp
  obtain ⟨k', t', hk', hq⟩ := hq
  exact ⟨_, _, by omega, hp.seq hq i j e h1 h2 rfl rfl⟩

theorem Uses.frame {p : List Op} {n o r : Nat} (h : Uses p n o r) (i : Nat) {R : Nat} (hr : r ≤ R) :
    Uses p (n + i) (o + i) R := by
  obtain ⟨k, t, hk, h⟩ := h
  exact ⟨_, _, by omega, h.frame i⟩

theorem Uses.emitN {p : List Op} {n r : Nat} (h : Uses p n n r) : ∀ (m : Nat), Uses (emitN m p) n n r
  | 0 => ⟨n, n, by omega, Eff.nil n⟩
  | m + 1 => by
    rw [emitN_succ]
    exact h.seq (Uses.emitN h m) 0 0 rfl rfl rfl (by omega) (by omega)

theorem Uses.ite {p q : List Op} {n o r r' R : Nat} (hp : Uses p n o r) (hq : Uses q n o r') (h1 : o ≤ n + 1 + R)
    (h2 : r ≤ R + 1) (h3 : r' ≤ R + 1) : Uses (.opif :: (p ++ .opelse :: (q ++ [.opendif]))) (n + 1) o R := by
  obtain ⟨k, t, hk, hp⟩ := hp
  obtain ⟨k', t', hk', hq⟩ := hq
  exact ⟨_, _, by omega, hp.ite hq⟩

theorem Uses.of_shape {p : List Op} {n o r : Nat} (q : List Op) (hq : p.map Op.shape = q.map Op.shape)
    (h : Uses q n o r) : Uses p n o r := by
  obtain ⟨k, t, hk, h⟩ := h
  exact ⟨k, t, hk, h.of_shape q hq⟩

/-! ### Operations -/

variable {L : U31Lib} {R : Nat}

theorem uses_square1 (hL : L.Slim R) : Uses (squareScript L 1) 1 1 (R + 4) := by
  have d : Uses [Op.dup] 1 2 1 := .of (by decide +kernel)
  exact d.seq hL.mul 0 0 rfl rfl rfl (by omega) (by omega)

theorem uses_square4 (hL : L.Slim R) : Uses (squareScript L 4) 4 4 (R + 4) := by
  have d : Uses op4dup 4 8 4 := .of (by decide +kernel)
  exact d.seq hL.extMul 0 0 rfl rfl rfl (by omega) (by omega)

theorem uses_roll4 : Uses [Op.num 4, .roll] 5 5 1 := .of (by decide +kernel)

theorem add_room (hL : L.Slim R) (a b : Kind) : Fit (addScript L a.size b.size) (a.size + b.size) (R + 4) := by
  cases a <;> cases b
  · exact .of_uses (hL.add.frame 0 (by omega))
  · exact .of_uses (uses_roll4.seq hL.extAddU31 0 0 (N := 5) (R := R + 4) rfl rfl rfl (by omega) (by omega))
  · exact .of_uses (hL.extAddU31.frame 0 (by omega))
  · exact .of_uses (hL.extAdd.frame 0 (by omega))

theorem sub_room (hL : L.Slim R) (a b : Kind) : Fit (subScript L a.size b.size) (a.size + b.size) (R + 4) := by
  cases a <;> cases b
  · exact .of_uses (hL.sub.frame 0 (by omega))
  · exact .of_uses (uses_roll4.seq hL.subU31Ext 0 0 (N := 5) (R := R + 4) rfl rfl rfl (by omega) (by omega))
  · exact .of_uses (hL.extSubU31.frame 0 (by omega))
  · exact .of_uses (hL.extSub.frame 0 (by omega))

theorem mul_room (hL : L.Slim R) (a b : Kind) : Fit (mulScript L a.size b.size) (a.size + b.size) (R + 4) := by
  cases a <;> cases b
  · exact .of_uses (hL.mul.frame 0 (by omega))
  · exact .of_uses (uses_roll4.seq hL.extMulU31 0 0 (N := 5) (R := R + 4) rfl rfl rfl (by omega) (by omega))
  · exact .of_uses (hL.extMulU31.frame 0 (by omega))
  · exact .of_uses (hL.extMul.frame 0 (by omega))

theorem neg_room (hL : L.Slim R) (a : Kind) : Fit (negScript L a.size) a.size (R + 4) := by
  cases a
  · exact .of_uses (hL.neg.frame 0 (by omega))
  · exact .of_uses (hL.extNeg.frame 0 (by omega))

theorem double_room (hL : L.Slim R) (a : Kind) : Fit (doubleScript L a.size) a.size (R + 4) := by
  cases a
  · exact .of_uses (hL.double.frame 0 (by omega))
  · exact .of_uses (hL.extDouble.frame 0 (by omega))

theorem square_room (hL : L.Slim R) (a : Kind) : Fit (squareScript L a.size) a.size (R + 4) := by
  cases a
  · exact .of_uses (uses_square1 hL)
  · exact .of_uses (uses_square4 hL)

theorem expConst_room (hL : L.Slim R) (a : Kind) {power : Nat} {p : List Op}
    (h : expConstScript L a.size power = some p) : Fit p a.size (R + 4) := by
  unfold expConstScript valueExpN at h
  obtain ⟨k, -, h⟩ := Option.map_eq_some_iff.mp h
  cases h
  cases a
  · exact .of_uses ((uses_square1 hL).emitN k)
  · exact .of_uses ((uses_square4 hL).emitN k)

theorem equalVerify_room (hL : L.Slim R) (a : Kind) : Fit (equalVerifyScript L a.size) (a.size + a.size) (R + 4) := by
  cases a
  · have d : Uses [Op.equalverify] 2 0 0 := .of (by decide +kernel)
    exact .of_uses (d.frame 0 (by omega))
  · exact .of_uses (hL.extEqualverify.frame 0 (by omega))

theorem equal_room (hL : L.Slim R) (a : Kind) : Fit (equalScript L a.size) (a.size + a.size) (R + 4) := by
  cases a
  · have d : Uses [Op.equal] 2 1 0 := .of (by decide +kernel)
    exact .of_uses (d.frame 0 (by omega))
  · have d : Uses [Op.num 1] 0 1 1 := .of (by decide +kernel)
    exact .of_uses (hL.extEqualverify.seq d 0 0 (R := R + 4) rfl rfl rfl (by omega) (by omega))

theorem uses_u32ToU31 (hL : L.Slim R) (M : Nat) : Uses (u32ToU31 M L.sub) 1 1 (R + 4) := by
  have d1 : Uses [Op.dup, .num 0, .lessthan] 1 2 2 := .of (by decide +kernel)
  have d2 : Uses [Op.abs, .num M] 1 2 1 := .of_shape [Op.abs, .num 0] rfl (.of (by decide +kernel))
  have d3 : Uses [Op.num (0x80000000 - 0x78000001 : Nat), .add] 1 1 1 := .of (by decide +kernel)
  have d4 : Uses [Op.num M] 1 2 1 := .of_shape [Op.num 0] rfl (.of (by decide +kernel))
  have b1 := (d2.seq hL.sub 0 0 (R := R + 1) rfl rfl rfl (by omega) (by omega)).seq d3 0 0 (R := R + 1) rfl rfl rfl
    (by omega) (by omega)
  obtain ⟨k, t, hk, b1⟩ := b1
  have b2 : Uses _ 2 1 R := ⟨_, _, by omega, b1.when⟩
  have b3 := (d1.seq b2 0 0 (R := R + 2) rfl rfl rfl (by omega) (by omega)).seq d4 0 0 (R := R + 2) rfl rfl rfl (by omega)
    (by omega)
  have b4 := b3.seq hL.sub 0 0 (R := R + 4) rfl rfl rfl (by omega) (by omega)
  simpa [u32ToU31, List.append_assoc] using b4

theorem numToField_room (hL : L.Slim R) : Fit (numToFieldScript L 1) 1 (R + 4) := .of_uses (uses_u32ToU31 hL _)

theorem high_room : ∀ b, b ≤ 31 → ∀ p, extractHighBits b = some p → fitsBy p 1 33 = true := by decide +kernel
theorem rev_room : ∀ b, b ≤ 31 → ∀ p, indexToReverseIndex b = some p → fitsBy p 1 (2 * b) = true := by decide +kernel

theorem eff_drops : ∀ n : Nat, Eff (emitN n [.drop]) n 0 n n
  | 0 => Eff.nil 0
  | n + 1 => by
    have d : Eff [Op.drop] 1 0 1 1 := .of_scan (by decide +kernel)
    have h := eff_drops n
    rw [emitN_succ]
    exact d.seq h n 0 (by omega) (by omega) rfl (by omega) (by omega)

theorem lookup_room (len r : Nat) : Fit (opLookup len) (len + 1) r := by
  have d1 : Uses [Op.pick, .toAlt] 1 1 0 := .of (by decide +kernel)
  have d2 : Uses [Op.fromAlt] 1 1 0 := .of (by decide +kernel)
  have h1 := d1.seq ((eff_drops len).uses (r := 0) (by omega)) len 1 (N := len + 1) (O := 1) (R := r) (by omega)
    (by omega) (by omega) (by omega) (by omega)
  exact .of_uses (h1.seq d2 0 0 (R := r) rfl rfl rfl (by omega) (by omega))

theorem toSample_room (hL : L.Slim R) : Fit (Opc.toSampleScript L) 32 (R + 4) := by
  have c1 : Uses u32Compress 4 1 2 := eff_u32Compress.uses (by omega)
  have d1 : Uses [Op.toAlt] 1 1 0 := .of (by decide +kernel)
  have w := (c1.seq (uses_u32ToU31 hL 0x78000001) 0 0 (R := R + 2) rfl rfl rfl (by omega) (by omega)).seq d1 0 0
    (R := R + 2) rfl rfl rfl (by omega) (by omega)
  have rep : ∀ m, Uses (emitN m (u32Compress ++ u32ToU31 0x78000001 L.sub ++ [.toAlt])) (4 * m) m (R + 2) := by
    intro m
    induction m with
    | zero => exact (Eff.nil 0).uses (by omega)
    | succ m ih =>
      rw [emitN_succ]
      exact w.seq ih (4 * m) 1 (by omega) (by omega) (by omega) (by omega) (by omega)
  have d2 : Uses (emitN 8 [Op.fromAlt]) 8 8 0 := .of (by decide +kernel)
  have d3 : Uses ((List.range 7).flatMap fun i => [Op.num (i + 1 : Nat), .roll]) 8 8 1 := .of (by decide +kernel)
  exact .of_uses (((rep 8).seq d2 0 0 (R := R + 2) rfl rfl rfl (by omega) (by omega)).seq d3 0 0 (R := R + 4) rfl rfl rfl
    (by omega) (by omega))

theorem sampleBase_room : Fit Opc.sampleBaseScript 8 0 := .of (by decide +kernel)
theorem sampleExt_room : Fit Opc.sampleExtScript 8 0 := .of (by decide +kernel)
theorem four_room : Fit fourU32ToU32Script 4 0 := .of (by decide +kernel)

theorem blake3_room {p : List Op} (h : Opc.blake3Perm = some p) : Fit p 64 328 := by
  simp only [Opc.blake3Perm, Option.bind_eq_bind, Option.bind_eq_some_iff] at h
  obtain ⟨q, hq, h⟩ := h
  cases h
  have d : Uses ((List.range 7).flatMap fun i => Op.num ((i + 1) * 4 : Nat) :: op4roll) 32 32 2 := .of (by decide +kernel)
  exact .of_uses (((eff_blake3 hq).uses (r := 328) (by omega)).seq d 0 0 (R := 328) rfl rfl rfl (by omega) (by omega))

theorem uses_genBit (i b : Nat) : Uses (genBit i b) 1 2 2 := by
  have d1 : Uses [Op.dup, .num (2 ^ i - 1 : Nat), .greaterthan] 1 2 2 :=
    .of_shape [Op.dup, .num 0, .greaterthan] rfl (.of (by decide +kernel))
  have d2 : Uses [Op.num (2 ^ i : Nat), .sub, .num (b - i : Nat), .toAlt] 1 2 1 :=
    .of_shape [Op.num 0, .sub, .num 0, .toAlt] rfl (.of (by decide +kernel))
  have d3 : Uses [Op.num 33, .toAlt] 1 2 1 := .of (by decide +kernel)
  exact d1.seq (d2.ite d3 (R := 1) (by omega) (by omega) (by omega)) 0 0 (R := 2) rfl rfl rfl (by omega) (by omega)

theorem uses_genBits (b : Nat) : ∀ i, Uses (genBits b i) 1 (i + 1) (i + 1)
  | 0 => (Eff.nil 1).uses (by omega)
  | i + 1 => (uses_genBit i b).seq (uses_genBits b i) 0 1 rfl rfl rfl (by omega) (by omega)

theorem uses_generator : Uses (getGenerator bbConsts) 1 1 28 := .of (by decide +kernel)
theorem uses_generator4 : Uses (getGenerator bb4Consts) 1 4 115 := .of (by decide +kernel)

theorem uses_rouStep (hL : L.Slim R) : Uses (rouStep L bbConsts) 2 1 (max 28 (R + 2)) := by
  have d1 : Uses [Op.fromAlt, .dup, .num 33, .equal] 1 2 2 := .of (by decide +kernel)
  have d2 : Uses [Op.drop] 2 1 0 := .of (by decide +kernel)
  have m := uses_generator.seq hL.mul 1 0 (N := 2) (R := max 28 (R + 2)) rfl rfl rfl (by omega) (by omega)
  have := d1.seq (d2.ite m (R := max 28 (R + 2) - 1) (by omega) (by omega) (by omega)) 1 0 (N := 2)
    (R := max 28 (R + 2)) rfl rfl rfl (by omega) (by omega)
  simpa [rouStep, List.append_assoc, bbConsts] using this

theorem uses_rouStep4 (hL : L.Slim R) : Uses (rouStep L bb4Consts) 5 4 (max 115 (R + 3)) := by
  have d1 : Uses [Op.fromAlt, .dup, .num 33, .equal] 1 2 2 := .of (by decide +kernel)
  have d2 : Uses [Op.drop] 5 4 0 := .of (by decide +kernel)
  have m := uses_generator4.seq hL.extMul 4 0 (N := 5) (R := max 115 (R + 3)) rfl rfl rfl (by omega) (by omega)
  have := d1.seq (d2.ite m (R := max 115 (R + 3) - 1) (by omega) (by omega) (by omega)) 4 0 (N := 5)
    (R := max 115 (R + 3)) rfl rfl rfl (by omega) (by omega)
  simpa [rouStep, List.append_assoc, bb4Consts] using this

theorem uses_rounds {p : List Op} {n r : Nat} (h : Uses p (n + 1) n r) : ∀ m, Uses (emitN m p) (n + m) n r
  | 0 => (Eff.nil n).uses (by omega)
  | m + 1 => by
    rw [emitN_succ]
    exact h.seq (uses_rounds h m) m 0 (by omega) (by omega) rfl (by omega) (by omega)

theorem rou_room (hL : L.Slim R) {b : Nat} {p : List Op} (h : indexToRou L bbConsts b = some p) :
    Fit p 1 (b + max 118 (R + 8)) := by
  unfold indexToRou at h
  split at h
  · cases h
  · cases h
    have d1 : Uses [Op.num 0, .equalverify] 1 0 1 := .of (by decide +kernel)
    have d2 : Uses (bbConsts.one.reverse.map fun (v : Nat) => Op.num v) 0 1 1 := .of (by decide +kernel)
    have h1 := (uses_genBits b b).seq d1 0 b (N := 1) (O := b) (R := b + 1) (by omega) rfl (by omega) (by omega) (by omega)
    have h2 := h1.seq d2 0 b (N := 1) (O := 1 + b) (R := b + 1) (by omega) rfl (by omega) (by omega) (by omega)
    exact .of_uses (h2.seq (uses_rounds (uses_rouStep hL) b) 0 0 (R := b + max 118 (R + 8)) rfl rfl rfl (by omega) (by omega))

theorem rou_room4 (hL : L.Slim R) {b : Nat} {p : List Op} (h : indexToRou L bb4Consts b = some p) :
    Fit p 1 (b + max 118 (R + 8)) := by
  unfold indexToRou at h
  split at h
  · cases h
  · cases h
    have d1 : Uses [Op.num 0, .equalverify] 1 0 1 := .of (by decide +kernel)
    have d2 : Uses (bb4Consts.one.reverse.map fun (v : Nat) => Op.num v) 0 4 4 := .of (by decide +kernel)
    have h1 := (uses_genBits b b).seq d1 0 b (N := 1) (O := b) (R := b + 1) (by omega) rfl (by omega) (by omega) (by omega)
    have h2 := h1.seq d2 0 b (N := 1) (O := 4 + b) (R := b + 3) (by omega) rfl (by omega) (by omega) (by omega)
    exact .of_uses (h2.seq (uses_rounds (uses_rouStep4 hL) b) 0 0 (R := b + max 118 (R + 8)) rfl rfl rfl (by omega) (by omega))

variable {K : Variable → Kind} {as : List (List Kind)} {r : List Kind} {sizes : List Nat}

theorem sum_replicate_one {ks : List Kind} (h : ∀ k ∈ ks, k.size = 1) : (ks.map Kind.size).sum = ks.length := by
  induction ks with
  | nil => rfl
  | cons k ks ih =>
    have h1 := h k (List.mem_cons_self ..)
    have h2 := ih fun x hx => h x (List.mem_cons_of_mem _ hx)
    simp only [List.map_cons, List.sum_cons, List.length_cons, h1, h2]
    omega

/-- The script of an operation fits into its room. -/
theorem script_room (hL : L.Slim R) {opc : Opc} (h : opc.isScript = true) (ht : opc.Types K as r)
    (hs : SizesOk opc as sizes) {p : List Op} {c n k : Nat} (he : opc.emit L sizes = some (.custom p c n k)) :
    Fit p ((as.map fun ks => (ks.map Kind.size).sum).sum) (opc.room R) := by
  have same : ∀ {a b : Kind}, (a = .ext ∧ b = .ext ∨ a.IsNum ∧ b.IsNum) → a.size = b.size := by
    rintro a b (⟨rfl, rfl⟩ | ⟨⟨A, rfl⟩, B, rfl⟩) <;> rfl
  cases opc with
  | constant vs => cases h
  | inputMove v => cases h
  | inputCopy v => cases h
  | table es => cases h
  | add =>
    obtain ⟨a, b, rfl, -, -, rfl⟩ := ht
    rw [sizes_two hs] at he
    cases he
    simpa [Opc.room] using add_room hL a b
  | sub =>
    obtain ⟨a, b, rfl, -, -, rfl⟩ := ht
    rw [sizes_two hs] at he
    cases he
    simpa [Opc.room] using sub_room hL a b
  | mul =>
    obtain ⟨a, b, rfl, -, -, rfl⟩ := ht
    rw [sizes_two hs] at he
    cases he
    simpa [Opc.room] using mul_room hL a b
  | neg =>
    obtain ⟨a, rfl, -, rfl⟩ := ht
    rw [sizes_one hs] at he
    cases he
    simpa [Opc.room] using neg_room hL a
  | square =>
    obtain ⟨a, rfl, -, rfl⟩ := ht
    rw [sizes_one hs] at he
    cases he
    simpa [Opc.room] using square_room hL a
  | double =>
    obtain ⟨a, rfl, -, rfl⟩ := ht
    rw [sizes_one hs] at he
    cases he
    simpa [Opc.room] using double_room hL a
  | equal =>
    obtain ⟨a, b, rfl, hab, rfl⟩ := ht
    rw [sizes_two hs, ← same hab] at he
    simp only [Opc.emit, if_true, Option.some.injEq] at he
    cases he
    simpa [Opc.room, ← same hab] using equal_room hL a
  | equalVerify =>
    obtain ⟨a, b, rfl, hab, rfl⟩ := ht
    rw [sizes_two hs, ← same hab] at he
    simp only [Opc.emit, if_true, Option.some.injEq] at he
    cases he
    simpa [Opc.room, ← same hab] using equalVerify_room hL a
  | numToField =>
    obtain ⟨B, rfl, rfl⟩ := ht
    rw [sizes_one hs] at he
    cases he
    exact numToField_room hL
  | fieldToNum =>
    obtain ⟨B, rfl, rfl⟩ := ht
    rw [sizes_one hs] at he
    simp only [Opc.emit, Kind.size, if_true, Option.some.injEq] at he
    cases he
    exact (Fit.of (n := 1) (r := 0) (by decide +kernel)).mono (by simp [Kind.size]) (by omega)
  | extractHighBits len =>
    obtain ⟨B, rfl, h1, h2, rfl⟩ := ht
    rw [sizes_one hs] at he
    simp only [Opc.emit, Kind.size, if_true, Option.bind_eq_bind, Option.bind_eq_some_iff] at he
    obtain ⟨q, hq, he⟩ := he
    cases he
    exact Fit.of (high_room len h2 _ hq)
  | expConst fs power =>
    obtain ⟨a, rfl, -, rfl, -, rfl⟩ := ht
    rw [sizes_one hs] at he
    simp only [Opc.emit, Option.bind_eq_bind, Option.bind_eq_some_iff] at he
    obtain ⟨q, hq, he⟩ := he
    cases he
    simpa [Opc.room] using expConst_room hL a hq
  | indexToRou F bits =>
    obtain ⟨B, rfl, h1, hF⟩ := ht
    rw [sizes_one hs] at he
    simp only [Opc.emit, Option.bind_eq_bind, Option.bind_eq_some_iff] at he
    obtain ⟨q, hq, he⟩ := he
    cases he
    rcases hF with ⟨rfl, -⟩ | ⟨rfl, -⟩
    · exact rou_room hL hq
    · exact rou_room4 hL hq
  | lookup fs len =>
    obtain ⟨k, B, rfl, hB, hk, rfl, rfl⟩ := ht
    have hsz : ∃ x y, sizes = [x, y] := by
      cases hs.1 with
      | cons _ h2 => cases h2 with
        | cons _ h3 => cases h3; exact ⟨_, _, rfl⟩
    obtain ⟨x, y, rfl⟩ := hsz
    simp only [Opc.emit] at he
    split at he
    · cases he
      have e1 : ((List.replicate len k).map Kind.size).sum = len := by simp [hk]
      have := lookup_room len (R + 4)
      simp only [List.map_cons, List.map_nil, e1, List.sum_cons, List.sum_nil]
      exact this
    · cases he
  | blake3 =>
    obtain ⟨hal, hak, rfl⟩ := ht
    simp only [Opc.emit] at he
    split at he
    · simp only [Option.bind_eq_bind, Option.bind_eq_some_iff] at he
      obtain ⟨q, hq, he⟩ := he
      cases he
      have e1 : (as.map fun ks => (ks.map Kind.size).sum) = as.map List.length :=
        List.map_congr_left fun ks hks => sum_replicate_one fun k hk => by
          obtain ⟨B, -, rfl⟩ := hak ks hks k hk
          rfl
      rw [e1, hal]
      exact blake3_room hq
    · cases he
  | toSample =>
    obtain ⟨rfl, rfl⟩ := ht
    obtain ⟨x, rfl⟩ := sizes_single hs
    cases he
    exact toSample_room hL
  | sampleBase =>
    obtain ⟨rfl, rfl⟩ := ht
    obtain ⟨x, rfl⟩ := sizes_single hs
    simp only [Opc.emit] at he
    split at he
    · cases he
      exact sampleBase_room.mono (by decide) (by omega)
    · cases he
  | sampleExt =>
    obtain ⟨rfl, rfl⟩ := ht
    obtain ⟨x, rfl⟩ := sizes_single hs
    cases he
    exact sampleExt_room.mono (by decide) (by omega)
  | reverseBitslen bits =>
    obtain ⟨B, rfl, h1, h2, rfl⟩ := ht
    rw [sizes_one hs] at he
    simp only [Opc.emit, Option.bind_eq_bind, Option.bind_eq_some_iff] at he
    obtain ⟨q, hq, he⟩ := he
    cases he
    exact Fit.of (rev_room bits h2 _ hq)
  | fourU32ToU32 =>
    obtain ⟨rfl, rfl⟩ := ht
    rw [sizes_one hs] at he
    simp only [Opc.emit, Kind.size, if_true, Option.some.injEq] at he
    cases he
    exact four_room.mono (by decide) (by omega)

/-! ### The reference library and tracker -/

theorem uses_add : Uses (u31Add 2013265921) 2 1 1 := .of (by decide +kernel)
theorem uses_mul : Uses (u31Mul 2013265921) 2 1 35 := .of (by decide +kernel)

/-- A term of the product of two extension elements, with any script for the product of base field elements. -/
def termOf (mp : List Op) (i j off : Nat) : List Op :=
  [.num (4 + i + off : Nat), .pick, .num (j + off + 1 : Nat), .pick] ++ mp

section
variable {mp ap : List Op} (hm : Uses mp 2 1 35) (ha : Uses ap 2 1 1)
include hm

theorem uses_term (i j off : Nat) : Uses (termOf mp i j off) 0 1 37 := by
  have d : Uses [Op.num (4 + i + off : Nat), .pick, .num (j + off + 1 : Nat), .pick] 0 2 2 :=
    .of_shape [Op.num 0, .pick, .num 0, .pick] rfl (.of (by decide +kernel))
  exact d.seq hm 0 0 rfl rfl rfl (by omega) (by omega)

theorem Uses.fresh {p : List Op} {m : Nat} (h : Uses p 8 m 41) (i j : Nat) (hmm : m ≤ 11) :
    Uses (p ++ termOf mp i j 0) 8 (m + 1) 41 :=
  h.seq (uses_term hm i j 0) 0 m (by omega) rfl (by omega) (Nat.le_refl _) (by omega)

theorem Uses.eleven {p : List Op} {m : Nat} (h : Uses p 8 (m + 1) 41) (hmm : m ≤ 11) :
    Uses (p ++ [.num 11] ++ mp) 8 (m + 1) 41 :=
  (h.seq (.of (p := [Op.num 11]) (n := 0) (o := 1) (r := 1) (by decide +kernel)) 0 (m + 1) (N := 8) (O := m + 2) (R := 41)
    (by omega) rfl (by omega) (Nat.le_refl _) (by omega)).seq hm 0 m (by omega) rfl (by omega) (Nat.le_refl _) (by omega)

include ha in
/-- Adding a term. -/
theorem Uses.term {p : List Op} {m : Nat} (h : Uses p 8 (m + 1) 41) (i j : Nat) (hmm : m ≤ 11) :
    Uses (p ++ termOf mp i j 1 ++ ap) 8 (m + 1) 41 :=
  (h.seq (uses_term hm i j 1) 0 (m + 1) (N := 8) (O := m + 2) (R := 41) (by omega) rfl (by omega) (Nat.le_refl _) (by omega)).seq
    ha 0 m (by omega) rfl (by omega) (Nat.le_refl _) (by omega)

omit hm in
theorem Uses.stash {p : List Op} {m : Nat} (h : Uses p 8 (m + 1) 41) (hmm : m ≤ 11) : Uses (p ++ [.toAlt]) 8 (m + 1) 41 :=
  h.seq (.of (p := [Op.toAlt]) (n := 1) (o := 1) (r := 0) (by decide +kernel)) 0 m (by omega) rfl (by omega) (Nat.le_refl _)
    (by omega)

include ha in
theorem uses_extMul_of : Uses (let t := termOf mp
    t 1 3 0 ++ t 2 2 1 ++ ap ++ t 3 1 1 ++ ap ++ [.num 11] ++ mp ++ t 0 0 1 ++ ap ++ [.toAlt] ++
    t 2 3 0 ++ t 3 2 1 ++ ap ++ [.num 11] ++ mp ++ t 0 1 1 ++ ap ++ t 1 0 1 ++ ap ++ [.toAlt] ++
    t 3 3 0 ++ [.num 11] ++ mp ++ t 0 2 1 ++ ap ++ t 1 1 1 ++ ap ++ t 2 0 1 ++ ap ++ [.toAlt] ++
    t 0 3 0 ++ t 1 2 1 ++ ap ++ t 2 1 1 ++ ap ++ t 3 0 1 ++ ap ++ [.toAlt] ++
    [.drop2, .drop2, .drop2, .drop2, .fromAlt, .fromAlt, .fromAlt, .fromAlt]) 8 4 41 := by
  have fin : Uses [Op.drop2, .drop2, .drop2, .drop2, .fromAlt, .fromAlt, .fromAlt, .fromAlt] 12 4 0 :=
    .of (by decide +kernel)
  have z : Uses [] 8 8 41 := (Eff.nil 8).uses (by omega)
  have c1 := Uses.fresh (m := 8) hm z 1 3 (by decide)
  have c2 := Uses.term (m := 8) hm ha c1 2 2 (by decide)
  have c3 := Uses.term (m := 8) hm ha c2 3 1 (by decide)
  have c4 := Uses.eleven (m := 8) hm c3 (by decide)
  have c5 := Uses.term (m := 8) hm ha c4 0 0 (by decide)
  have c6 := c5.stash (m := 8) (by decide)
  have c7 := Uses.fresh (m := 9) hm c6 2 3 (by decide)
  have c8 := Uses.term (m := 9) hm ha c7 3 2 (by decide)
  have c9 := Uses.eleven (m := 9) hm c8 (by decide)
  have c10 := Uses.term (m := 9) hm ha c9 0 1 (by decide)
  have c11 := Uses.term (m := 9) hm ha c10 1 0 (by decide)
  have c12 := c11.stash (m := 9) (by decide)
  have c13 := Uses.fresh (m := 10) hm c12 3 3 (by decide)
  have c14 := Uses.eleven (m := 10) hm c13 (by decide)
  have c15 := Uses.term (m := 10) hm ha c14 0 2 (by decide)
  have c16 := Uses.term (m := 10) hm ha c15 1 1 (by decide)
  have c17 := Uses.term (m := 10) hm ha c16 2 0 (by decide)
  have c18 := c17.stash (m := 10) (by decide)
  have c19 := Uses.fresh (m := 11) hm c18 0 3 (by decide)
  have c20 := Uses.term (m := 11) hm ha c19 1 2 (by decide)
  have c21 := Uses.term (m := 11) hm ha c20 2 1 (by decide)
  have c22 := Uses.term (m := 11) hm ha c21 3 0 (by decide)
  have c23 := c22.stash (m := 11) (by decide)
  have := c23.seq fin 0 0 (N := 8) (O := 4) (R := 41) rfl rfl rfl (by omega) (by omega)
  rw [List.nil_append] at this
  exact this

theorem uses_extMulU31_of : Uses ([.tuck] ++ mp ++ [.toAlt, .tuck] ++ mp ++ [.toAlt, .tuck] ++ mp ++ [.toAlt] ++ mp ++
    [.fromAlt, .fromAlt, .fromAlt]) 5 4 41 := by
  have d0 : Uses [Op.tuck] 2 3 1 := .of (by decide +kernel)
  have d1 : Uses [Op.toAlt, .tuck] 3 4 1 := .of (by decide +kernel)
  have d2 : Uses [Op.toAlt] 1 1 0 := .of (by decide +kernel)
  have d3 : Uses [Op.fromAlt, .fromAlt, .fromAlt] 3 3 0 := .of (by decide +kernel)
  have m (p : List Op) (n : Nat) (h : Uses p 5 (n + 2) 41) (hn : n ≤ 6) : Uses (p ++ mp) 5 (n + 1) 41 :=
    h.seq hm 0 n (by omega) rfl (by omega) (Nat.le_refl _) (by omega)
  have e1 := m _ 4 (d0.frame 3 (R := 41) (by decide)) (by decide)
  have e2 := m _ 4 (e1.seq d1 0 2 (N := 5) (O := 6) (R := 41) rfl rfl rfl (by decide) (by decide)) (by decide)
  have e3 := m _ 4 (e2.seq d1 0 2 (N := 5) (O := 6) (R := 41) rfl rfl rfl (by decide) (by decide)) (by decide)
  have e4 := m _ 3 (e3.seq d2 0 4 (N := 5) (O := 5) (R := 41) rfl rfl rfl (by decide) (by decide)) (by decide)
  exact e4.seq d3 0 1 (N := 5) (O := 4) (R := 41) rfl rfl rfl (by decide) (by decide)

end

theorem uses_extMul : Uses (extMulRef 2013265921) 8 4 41 := uses_extMul_of uses_mul uses_add

/-- The scripts written in the repository need 41 elements. -/
theorem repoLib_slim : (repoLib 2013265921).Slim 41 where
  add := .of (by decide +kernel)
  sub := .of (by decide +kernel)
  mul := .of (by decide +kernel)
  double := .of (by decide +kernel)
  neg := .of (by decide +kernel)
  extAdd := .of (by decide +kernel)
  extSub := .of (by decide +kernel)
  extMul := uses_extMul
  extDouble := .of (by decide +kernel)
  extNeg := .of (by decide +kernel)
  extAddU31 := .of (by decide +kernel)
  extSubU31 := .of (by decide +kernel)
  subU31Ext := .of (by decide +kernel)
  extMulU31 := uses_extMulU31_of uses_mul
  extEqualverify := .of (by decide +kernel)

theorem uses_pushes : ∀ (vs : List Nat), Uses (vs.map fun (v : Nat) => Op.num v) 0 vs.length vs.length
  | [] => (Eff.nil 0).uses (by omega)
  | v :: vs => by
    have d : Uses [Op.num v] 0 1 1 := .of_shape [Op.num 0] rfl (.of (by decide +kernel))
    exact d.seq (uses_pushes vs) 0 1 (by omega) rfl (by simp) (by simp) (by simp; omega)

theorem uses_sink : ∀ s, s ≤ 4 → Uses (sinkTop s) (s + 1) (s + 1) 1 := by
  have : ∀ s, s ≤ 4 → usesBy (sinkTop s) (s + 1) (s + 1) 1 = true := by decide +kernel
  exact fun s hs => .of (this s hs)

theorem uses_dupTop : ∀ s, s ≤ 4 → Uses (dupTop s) s (s + s) s := by
  have : ∀ s, s ≤ 4 → usesBy (dupTop s) s (s + s) s = true := by decide +kernel
  exact fun s hs => .of (this s hs)

theorem uses_toAlts (d : Nat) : Uses (emitN d [.toAlt]) d d 0 := by
  cases d with
  | zero => exact (Eff.nil 0).uses (by omega)
  | succ d => 
    have := ((Uses.of (p := [Op.toAlt]) (n := 1) (o := 1) (r := 0) (by decide +kernel)).emitN (d + 1)).frame d (Nat.le_refl _)
    rwa [Nat.add_comm 1 d] at this

theorem uses_fromAlts (d : Nat) : Uses (emitN d [.fromAlt]) d d 0 := by
  cases d with
  | zero => exact (Eff.nil 0).uses (by omega)
  | succ d => 
    have := ((Uses.of (p := [Op.fromAlt]) (n := 1) (o := 1) (r := 0) (by decide +kernel)).emitN (d + 1)).frame d (Nat.le_refl _)
    rwa [Nat.add_comm 1 d] at this

theorem uses_unstash (d s : Nat) (hs : s ≤ 4) : Uses (emitN d (.fromAlt :: sinkTop s)) (d + s) (d + s) 1 := by
  cases d with
  | zero => exact ((Eff.nil _).uses (by omega))
  | succ d =>
    have h : Uses (Op.fromAlt :: sinkTop s) (s + 1) (s + 1) 1 :=
      (uses_fromAlts 1).seq (uses_sink s hs) s 0 (by omega) (by omega) rfl (by omega) (by omega)
    have := (h.emitN (d + 1)).frame d (Nat.le_refl _)
    rwa [show s + 1 + d = d + 1 + s by omega] at this

theorem uses_restash (d s : Nat) : s ≤ 4 → Uses (emitN d [.num s, .roll, .toAlt]) (d + s) (d + s) 1 := by
  have k : ∀ s : Nat, s ≤ 4 → usesBy [Op.num s, .roll, .toAlt] (s + 1) (s + 1) 1 = true := by decide +kernel
  intro hs
  cases d with
  | zero => exact ((Eff.nil _).uses (by omega))
  | succ d =>
    have := ((Uses.of (k s hs)).emitN (d + 1)).frame d (Nat.le_refl _)
    rwa [show s + 1 + d = d + 1 + s by omega] at this

/-- The reference fragments of the tracker need at most one element beside the copies. -/
theorem refTracker_thrifty : refTracker.Thrifty where
  push vs _ := by
    have := uses_pushes vs.reverse
    rw [List.length_reverse] at this
    exact (Fit.of_uses this).mono (by omega) (by omega)
  copy d s hs := by
    have h1 : Uses (emitN d [.toAlt] ++ dupTop s) (d + s) (d + s + s) s :=
      (uses_toAlts d).seq (uses_dupTop s hs) s d (by omega) rfl (by omega) (by omega) (by omega)
    exact (Fit.of_uses (h1.seq (uses_unstash d s hs) (R := s + 1) 0 s rfl rfl rfl (by omega) (by omega))).mono (by omega) (by omega)
  move d s hs := (Fit.of_uses ((uses_toAlts d).seq (uses_unstash d s hs) (R := 1) s 0 rfl rfl rfl (by omega) (by omega))).mono
    (by omega) (by omega)
  toAlt s _ := (Fit.of_uses (uses_toAlts s)).mono (by omega) (by omega)
  copyAlt d s hs := by
    have h1 : Uses (emitN d [.fromAlt] ++ emitN s [.fromAlt]) (d + s) (d + s) 0 :=
      (uses_fromAlts d).seq (uses_fromAlts s) s d (by omega) rfl (by omega) (by omega) (by omega)
    have h2 := h1.seq (uses_dupTop s hs) 0 d (N := d + s) (O := d + s + s) (R := s) (by omega) rfl (by omega) (by omega) (by omega)
    have h3 := h2.seq (uses_toAlts s) 0 (d + s) (N := d + s) (O := d + s + s) (R := s) (by omega) rfl (by omega) (by omega)
      (by omega)
    exact (Fit.of_uses (h3.seq (uses_restash d s hs) 0 s (R := s + 1) rfl rfl rfl (by omega) (by omega))).mono (by omega) (by omega)
  moveAlt d s hs := by
    have h1 : Uses (emitN d [.fromAlt] ++ emitN s [.fromAlt]) (d + s) (d + s) 0 :=
      (uses_fromAlts d).seq (uses_fromAlts s) s d (by omega) rfl (by omega) (by omega) (by omega)
    exact (Fit.of_uses (h1.seq (uses_restash d s hs) 0 0 (R := 1) rfl rfl rfl (by omega) (by omega))).mono (by omega) (by omega)

end TapStark
