import Verif.Model.Winternitz
import Verif.Spec.Winternitz
import Verif.Proofs.U32Xor
import Verif.Proofs.U32Arith
import Verif.Proofs.Pseudo

namespace TapStark

variable {cfg : Cfg} {ops : List Op} {m a : List Elem} {c : List Bool}

theorem hashIter_succ' (h : Elem → Elem) (n : Nat) (x : Elem) :
    hashIter h (n + 1) x = hashIter h n (h x) := by
  induction n with
  | zero => rfl
  | succ n ih => rw [hashIter, ih]; rfl

theorem hashTimes_eq (n : Nat) (x : Elem) : hashTimes cfg n x = hashIter cfg.hash160 n x := by
  induction n generalizing x with
  | zero => rfl
  | succ n ih => rw [hashTimes, ih, hashIter_succ']

theorem hashIter_add (h : Elem → Elem) (p q : Nat) (x : Elem) :
    hashIter h (p + q) x = hashIter h p (hashIter h q x) := by
  induction p with
  | zero => simp [hashIter]
  | succ p ih => rw [show p + 1 + q = (p + q) + 1 by omega, hashIter, ih]; rfl

/-! ### One digit -/

/-- `x, h x, …, h^n x` as left on the stack (top first). -/
def chainDown (h : Elem → Elem) : Nat → Elem → List Elem
  | 0, x => [x]
  | n + 1, x => hashIter h (n + 1) x :: chainDown h n x

theorem chainDown_length (h : Elem → Elem) (n : Nat) (x : Elem) : (chainDown h n x).length = n + 1 := by
  induction n with
  | zero => rfl
  | succ n ih => simp [chainDown, ih]

theorem chainDown_get (h : Elem → Elem) (n d : Nat) (x : Elem) (hd : d ≤ n) (m : List Elem) :
    (chainDown h n x ++ m)[d]? = some (hashIter h (n - d) x) := by
  induction n generalizing d with
  | zero => obtain rfl : d = 0 := by omega
            rfl
  | succ n ih =>
    cases d with
    | zero => rfl
    | succ d =>
      simp only [chainDown, List.cons_append, List.getElem?_cons_succ]
      rw [ih d (by omega)]
      congr 2; omega

theorem chainDown_head (h : Elem → Elem) (n : Nat) (x : Elem) :
    ∃ t, chainDown h n x = hashIter h n x :: t := by
  cases n with
  | zero => exact ⟨[], rfl⟩
  | succ n => exact ⟨_, rfl⟩

theorem emitN_succ' (n : Nat) (b : List Op) : emitN (n + 1) b = emitN n b ++ b := by
  unfold emitN
  rw [List.replicate_succ', List.flatten_append]; simp

theorem run_chain (n : Nat) (x : Elem) (hl : live c = true) :
    run cfg (emitN n [.dup, .hash160] ++ ops) ⟨x :: m, a, c⟩ =
      run cfg ops ⟨chainDown cfg.hash160 n x ++ m, a, c⟩ := by
  induction n generalizing ops with
  | zero => rfl
  | succ n ih =>
    rw [emitN_succ', List.append_assoc, ih]
    obtain ⟨t, ht⟩ := chainDown_head cfg.hash160 n x
    rw [chainDown, ht]
    simp only [List.cons_append, List.nil_append]
    rw [run_dup _ hl, run_hash160 _ hl]
    rfl

/-- The digit read from a stack element. -/
def digitOf (cfg : Cfg) (e : Elem) : Option Nat :=
  match decodeNum cfg.minimal e with
  | some v => if v < 0 then none else some (min v.toNat 15)
  | none => none

theorem digitOf_le {e : Elem} {d : Nat} (h : digitOf cfg e = some d) : d ≤ 15 := by
  unfold digitOf at h
  split at h
  · split at h
    · simp at h
    · have := Option.some.inj h; omega
  · simp at h

theorem opensDigit_iff {pk e x : Elem} {d : Nat} :
    OpensDigit cfg.hash160 cfg.minimal pk e x d ↔
      digitOf cfg e = some d ∧ hashIter cfg.hash160 (15 - d) x = pk := by
  unfold OpensDigit digitOf
  constructor
  · rintro ⟨v, h1, h2, h3, h4⟩
    rw [h1]
    refine ⟨?_, h4⟩
    simp only [if_neg (show ¬ v < 0 by omega)]
    congr 1; omega
  · rintro ⟨h1, h2⟩
    split at h1
    · rename_i v hv
      split at h1
      · simp at h1
      · have := Option.some.inj h1
        exact ⟨v, hv, by omega, by omega, h2⟩
    · simp at h1

/-- Digits and chain values consumed from the stack, one pair per public key element. -/
def takeDigits (cfg : Cfg) : List Elem → List Elem → Option (List Nat × List Elem)
  | [], m => some ([], m)
  | pk :: pks, e :: x :: m =>
    match digitOf cfg e with
    | some d =>
      if hashIter cfg.hash160 (15 - d) x = pk then
        match takeDigits cfg pks m with
        | some (ds, r) => some (d :: ds, r)
        | none => none
      else none
    | none => none
  | _ :: _, _ => none

theorem run_dup_nil (hl : live c = true) : run cfg (.dup :: ops) ⟨[], a, c⟩ = none := by
  simp [run_cons, step, hl, execOp]

theorem run_min_short {x : Elem} (hl : live c = true) : run cfg (.min :: ops) ⟨[x], a, c⟩ = none := by
  simp [run_cons, step, hl, execOp, numBin]

theorem run_min15 {e : Elem} (hl : live c = true) :
    run cfg (.min :: ops) ⟨num 15 :: e :: m, a, c⟩ =
      match decodeNum cfg.minimal e with
      | some v => run cfg ops ⟨num (if v < 15 then v else 15) :: m, a, c⟩
      | none => none := by
  have h15 : decodeNum cfg.minimal (num 15) = some 15 := decodeNum_num (by decide)
  simp only [run_cons, step, hl, if_true, execOp, numBin, h15]
  cases decodeNum cfg.minimal e <;> rfl

theorem run_pick_neg {v : Int} (hl : live c = true) (hv : v < 0) (hr : InRange v) :
    run cfg (.pick :: ops) ⟨num v :: m, a, c⟩ = none := by
  simp only [run_cons, step, hl, if_true, execOp, decodeNum_num hr, hv]
  rfl

theorem run_checkDigit (pk : Elem) (hl : live c = true) :
    run cfg (checkDigit pk ++ ops) ⟨m, a, c⟩ =
      match m with
      | e :: x :: m =>
        match digitOf cfg e with
        | some d => if hashIter cfg.hash160 (15 - d) x = pk then run cfg ops ⟨m, num d :: a, c⟩ else none
        | none => none
      | _ => none := by
  have hc : checkDigit pk = .num 15 :: .min :: .dup :: .toAlt :: .toAlt ::
      (emitN 15 [.dup, .hash160] ++ (.fromAlt :: .pick :: .push pk :: .equalverify ::
        emitN 8 [.drop2])) := rfl
  rw [hc]
  simp only [List.append_assoc, List.cons_append]
  rw [run_num _ hl]
  cases m with
  | nil => exact run_min_short hl
  | cons e m =>
  rw [run_min15 hl]
  cases m with
  | nil =>
    simp only []
    cases decodeNum cfg.minimal e with
    | none => rfl
    | some v =>
      simp only []
      rw [run_dup _ hl, run_toAlt _ hl, run_toAlt _ hl,
        show emitN 15 [Op.dup, Op.hash160] = .dup :: .hash160 :: emitN 14 [.dup, .hash160] from rfl,
        List.cons_append, run_dup_nil hl]
  | cons x m =>
    simp only []
    unfold digitOf
    cases hv : decodeNum cfg.minimal e with
    | none => rfl
    | some v =>
      simp only []
      rw [run_dup _ hl, run_toAlt _ hl, run_toAlt _ hl, run_chain _ _ hl, run_fromAlt _ hl]
      by_cases hneg : v < 0
      · rw [if_pos hneg, if_pos (by omega)]
        exact run_pick_neg hl hneg (decodeNum_some hv).1
      · rw [if_neg hneg]
        simp only []
        obtain ⟨d, hd⟩ : ∃ d, d = min v.toNat 15 := ⟨_, rfl⟩
        have hvd : (if v < 15 then v else 15) = (d : Int) := by split <;> omega
        rw [hvd, ← hd]
        rw [run_pick_some (k := d) hl rfl (chainDown_get _ 15 d _ (by omega) _) (by omega)]
        rw [run_push _ hl, run_equalverify _ _ hl]
        rw [run_emitN_drop2 _ _ (by rw [chainDown_length]) hl]
        by_cases he : hashIter cfg.hash160 (15 - d) x = pk
        · rw [if_pos he, if_pos he.symm]
        · rw [if_neg he, if_neg (fun h => he h.symm)]

theorem run_checkDigits (pks : List Elem) (hl : live c = true) :
    run cfg ((pks.map checkDigit).flatten ++ ops) ⟨m, a, c⟩ =
      match takeDigits cfg pks m with
      | some (ds, r) => run cfg ops ⟨r, (ds.map fun d : Nat => num (d : Int)).reverse ++ a, c⟩
      | none => none := by
  induction pks generalizing m a with
  | nil => rfl
  | cons pk pks ih =>
    rw [List.map_cons, List.flatten_cons, List.append_assoc, run_checkDigit pk hl]
    match m with
    | [] => rfl
    | [e] => rfl
    | e :: x :: m =>
      simp only [takeDigits]
      cases digitOf cfg e with
      | none => rfl
      | some d =>
        simp only []
        split
        · rw [ih]
          cases takeDigits cfg pks m with
          | none => rfl
          | some r => simp
        · rfl

theorem takeDigits_iff {pks m : List Elem} {ds : List Nat} {r : List Elem} :
    takeDigits cfg pks m = some (ds, r) ↔
      ∃ es xs : List Elem, es.length = pks.length ∧ xs.length = pks.length ∧ ds.length = pks.length ∧
        m = (es.zip xs).flatMap (fun p => [p.1, p.2]) ++ r ∧
        ∀ j, j < pks.length →
          OpensDigit cfg.hash160 cfg.minimal (pks.getD j []) (es.getD j []) (xs.getD j []) (ds.getD j 0) := by
  induction pks generalizing m ds with
  | nil =>
    simp only [takeDigits, Option.some.injEq, Prod.mk.injEq, List.length_nil]
    constructor
    · rintro ⟨rfl, rfl⟩; exact ⟨[], [], rfl, rfl, rfl, rfl, by simp⟩
    · rintro ⟨es, xs, h1, h2, h3, h4, _⟩
      rw [List.length_eq_zero_iff] at h1 h2 h3
      subst h1 h2 h3
      exact ⟨rfl, by simpa using h4⟩
  | cons pk pks ih =>
    constructor
    · intro h
      match m with
      | [] => simp [takeDigits] at h
      | [e] => simp [takeDigits] at h
      | e :: x :: m =>
        simp only [takeDigits] at h
        cases hd : digitOf cfg e with
        | none => rw [hd] at h; simp at h
        | some d =>
          rw [hd] at h
          simp only [] at h
          split at h
          · rename_i hx
            cases ht : takeDigits cfg pks m with
            | none => rw [ht] at h; simp at h
            | some q =>
              obtain ⟨ds', r'⟩ := q
              rw [ht] at h
              simp only [Option.some.injEq, Prod.mk.injEq] at h
              obtain ⟨rfl, rfl⟩ := h
              obtain ⟨es, xs, h1, h2, h3, h4, h5⟩ := ih.mp ht
              refine ⟨e :: es, x :: xs, by simp [h1], by simp [h2], by simp [h3], by simp [h4], ?_⟩
              intro j hj
              cases j with
              | zero => exact opensDigit_iff.mpr ⟨hd, hx⟩
              | succ j => exact h5 j (by simpa using hj)
          · simp at h
    · rintro ⟨es, xs, h1, h2, h3, h4, h5⟩
      match es, xs, ds, h1, h2, h3 with
      | e :: es, x :: xs, d :: ds, h1, h2, h3 =>
        subst h4
        have h0 := opensDigit_iff.mp (h5 0 (by simp))
        have ht : takeDigits cfg pks ((es.zip xs).flatMap (fun p => [p.1, p.2]) ++ r) = some (ds, r) :=
          ih.mpr ⟨es, xs, by simpa using h1, by simpa using h2, by simpa using h3, rfl,
            fun j hj => h5 (j + 1) (by simpa using hj)⟩
        simp only [List.getD_cons_zero] at h0
        simp only [List.zip_cons_cons, List.flatMap_cons, List.cons_append, List.nil_append, takeDigits,
          h0.1, h0.2, if_true, ht]

/-! ### Checksum and bytes -/

theorem inRange_small {x : Int} (h1 : -1000 ≤ x) (h2 : x ≤ 1000) : InRange x := by
  unfold InRange; omega

theorem run_subStep {d : Nat} {x : Int} (hl : live c = true) (hd : d ≤ 15) (h1 : -500 ≤ x)
    (h2 : x ≤ 500) :
    run cfg (.fromAlt :: .tuck :: .sub :: ops) ⟨num x :: m, num d :: a, c⟩ =
      run cfg ops ⟨num (x - d) :: num d :: m, a, c⟩ := by
  rw [run_fromAlt _ hl, run_tuck _ _ hl, run_sub hl (inRange_small (by omega) (by omega))
    (inRange_small (by omega) (by omega))]

theorem run_times16 {d : Nat} (hl : live c = true) (hd : d ≤ 15) :
    run cfg (.dup :: .add :: .dup :: .add :: .dup :: .add :: .dup :: .add :: ops) ⟨num d :: m, a, c⟩ =
      run cfg ops ⟨num (16 * d : Nat) :: m, a, c⟩ := by
  have e : ∀ {x : Nat} {ops : List Op}, x ≤ 200 → run cfg (.dup :: .add :: ops) ⟨num x :: m, a, c⟩ =
      run cfg ops ⟨num (2 * x : Nat) :: m, a, c⟩ := by
    intro x ops hx
    rw [run_dup _ hl, run_add hl (inRange_small (by omega) (by omega))
      (inRange_small (by omega) (by omega))]
    congr 3; rw [num_inj]; omega
  rw [e (by omega), e (by omega), e (by omega), e (by omega)]
  congr 3; rw [num_inj]; omega

theorem run_joinDigits {d e : Nat} (hl : live c = true) (hd : d ≤ 15) (he : e ≤ 15) :
    run cfg (.swap :: .dup :: .add :: .dup :: .add :: .dup :: .add :: .dup :: .add :: .add :: ops)
        ⟨num d :: num e :: m, a, c⟩ =
      run cfg ops ⟨num (d + 16 * e : Nat) :: m, a, c⟩ := by
  rw [run_swap _ _ hl, run_times16 hl he, run_add hl (inRange_small (by omega) (by omega))
      (inRange_small (by omega) (by omega))]
  congr 3

theorem run_checkChecksum (d0 d1 d2 d3 d4 d5 d6 d7 d8 d9 : Nat) (h0 : d0 ≤ 15) (h1 : d1 ≤ 15)
    (h2 : d2 ≤ 15) (h3 : d3 ≤ 15) (h4 : d4 ≤ 15) (h5 : d5 ≤ 15) (h6 : d6 ≤ 15) (h7 : d7 ≤ 15)
    (h8 : d8 ≤ 15) (h9 : d9 ≤ 15) (hl : live c = true) :
    run cfg (checkChecksum ++ ops) ⟨m, num d9 :: num d8 :: num d7 :: num d6 :: num d5 :: num d4 ::
        num d3 :: num d2 :: num d1 :: num d0 :: a, c⟩ =
      if d0 + 16 * d1 + (d2 + d3 + d4 + d5 + d6 + d7 + d8 + d9) = 120 then
        run cfg ops ⟨num d2 :: num d3 :: num d4 :: num d5 :: num d6 :: num d7 :: num d8 :: num d9 :: m,
          a, c⟩
      else none := by
  rw [show checkChecksum = .fromAlt :: .dup :: .negate :: (emitN 7 [.fromAlt, .tuck, .sub] ++
    .num (120 : Nat) :: .add :: .fromAlt :: .dup :: .add :: .dup :: .add :: .dup :: .add :: .dup :: .add ::
      .fromAlt :: .add :: [.equalverify]) from rfl]
  simp only [List.cons_append, List.append_assoc, List.nil_append]
  rw [run_fromAlt _ hl, run_dup _ hl, run_negate hl (inRange_small (by omega) (by omega))]
  simp only [emitN, List.replicate, List.flatten_cons, List.flatten_nil, List.cons_append,
    List.nil_append]
  rw [run_subStep hl (by omega) (by omega) (by omega), run_subStep hl (by omega) (by omega) (by omega),
    run_subStep hl (by omega) (by omega) (by omega), run_subStep hl (by omega) (by omega) (by omega),
    run_subStep hl (by omega) (by omega) (by omega), run_subStep hl (by omega) (by omega) (by omega),
    run_subStep hl (by omega) (by omega) (by omega), run_num _ hl,
    run_add hl (inRange_small (by omega) (by omega)) (by decide), run_fromAlt _ hl,
    run_times16 hl h1, run_fromAlt _ hl,
    run_add hl (inRange_small (by omega) (by omega)) (inRange_small (by omega) (by omega)),
    run_equalverify _ _ hl]
  simp only [num_inj]
  by_cases hc : d0 + 16 * d1 + (d2 + d3 + d4 + d5 + d6 + d7 + d8 + d9) = 120
  · rw [if_pos hc, if_pos (by omega)]
  · rw [if_neg hc, if_neg (by omega)]

theorem run_digitsToBytes (d2 d3 d4 d5 d6 d7 d8 d9 : Nat)
    (h2 : d2 ≤ 15) (h3 : d3 ≤ 15) (h4 : d4 ≤ 15) (h5 : d5 ≤ 15) (h6 : d6 ≤ 15) (h7 : d7 ≤ 15)
    (h8 : d8 ≤ 15) (h9 : d9 ≤ 15) (hl : live c = true) :
    run cfg (digitsToBytes ++ ops)
        ⟨num d2 :: num d3 :: num d4 :: num d5 :: num d6 :: num d7 :: num d8 :: num d9 :: m, a, c⟩ =
      run cfg ops ⟨num (d2 + 16 * d3 : Nat) :: num (d4 + 16 * d5 : Nat) :: num (d6 + 16 * d7 : Nat) ::
        num (d8 + 16 * d9 : Nat) :: m, a, c⟩ := by
  have e : digitsToBytes =
      [.swap, .dup, .add, .dup, .add, .dup, .add, .dup, .add, .add, .toAlt,
       .swap, .dup, .add, .dup, .add, .dup, .add, .dup, .add, .add, .toAlt,
       .swap, .dup, .add, .dup, .add, .dup, .add, .dup, .add, .add, .toAlt,
       .swap, .dup, .add, .dup, .add, .dup, .add, .dup, .add, .add,
       .fromAlt, .fromAlt, .fromAlt] := rfl
  rw [e]
  simp only [List.cons_append, List.nil_append]
  rw [run_joinDigits hl h2 h3, run_toAlt _ hl, run_joinDigits hl h4 h5, run_toAlt _ hl,
    run_joinDigits hl h6 h7, run_toAlt _ hl, run_joinDigits hl h8 h9, run_fromAlt _ hl,
    run_fromAlt _ hl, run_fromAlt _ hl]

theorem checksigVerify_eq (p0 p1 p2 p3 p4 p5 p6 p7 p8 p9 : Elem) (q : List Elem) :
    checksigVerify (p0 :: p1 :: p2 :: p3 :: p4 :: p5 :: p6 :: p7 :: p8 :: p9 :: q) =
      some (([p9, p8, p7, p6, p5, p4, p3, p2, p1, p0].map checkDigit).flatten ++ checkChecksum ++
        digitsToBytes) := rfl

theorem checksigVerify_exists {pk : List Elem} (h : pk.length = 10) : ∃ p, checksigVerify pk = some p := by
  match pk, h with
  | [p0, p1, p2, p3, p4, p5, p6, p7, p8, p9], _ => exact ⟨_, checksigVerify_eq ..⟩

theorem messageWord (d : Nat → Nat) (hd : ∀ j, j < 10 → d j ≤ 15) :
    wordElems (BitVec.ofNat 32 (messageValue d)) =
      [num (d 2 + 16 * d 3 : Nat), num (d 4 + 16 * d 5 : Nat), num (d 6 + 16 * d 7 : Nat),
        num (d 8 + 16 * d 9 : Nat)] := by
  have h2 := hd 2 (by decide); have h3 := hd 3 (by decide); have h4 := hd 4 (by decide)
  have h5 := hd 5 (by decide); have h6 := hd 6 (by decide); have h7 := hd 7 (by decide)
  have h8 := hd 8 (by decide); have h9 := hd 9 (by decide)
  have hv : messageValue d = (d 2 + 16 * d 3) + 256 * (d 4 + 16 * d 5) + 65536 * (d 6 + 16 * d 7) +
      16777216 * (d 8 + 16 * d 9) := by unfold messageValue; omega
  refine wordElems_of_bytes (by omega) (by omega) (by omega) (by omega) ?_
  rw [BitVec.toNat_ofNat, Nat.mod_eq_of_lt (by rw [hv]; omega), hv]

end TapStark
