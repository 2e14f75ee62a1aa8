import Verif.Spec.ChallengerExpr
import Verif.Proofs.MultiSafe
import Verif.Proofs.DslField

/-
The challenger that builds expressions follows the native challenger that forgets the rest of a block.
-/

namespace TapStark

open Stark (BB4 asBase4 mk4)
open FS (U32 U256 Chal Cmd leValue fromPf fromU64 u256ToU32 blake3Perm)

variable {K : Variable → Kind} {env : Variable → Val} {n : Nat} {P : Expr → Prop} {fs : Nat} {hash : List UInt8 → U256}

/-! ### Native challenger -/

/-- The bytes of words. -/
def wordBytes (ws : List U32) : List Nat := (ws.flatMap Vector.toList).map UInt8.toNat

theorem wordBytes_length (ws : List U32) : (wordBytes ws).length = 4 * ws.length := by
  induction ws with
  | nil => rfl
  | cons w ws ih =>
    simp only [wordBytes, List.flatMap_cons, List.map_append, List.length_append, List.length_map, List.length_cons,
      Vector.length_toList] at ih ⊢
    omega

theorem wordBytes_append (a b : List U32) : wordBytes (a ++ b) = wordBytes a ++ wordBytes b := by
  simp [wordBytes]

theorem wordBytes_zero (k : Nat) : wordBytes (List.replicate k (fromU64 0)) = List.replicate (4 * k) 0 := by
  induction k with
  | zero => rfl
  | succ k ih =>
    rw [List.replicate_succ, ← List.singleton_append, wordBytes_append, ih,
      show 4 * (k + 1) = 4 + 4 * k by omega, List.replicate_add]
    rfl

theorem wordBytes_lt (ws : List U32) : ∀ v ∈ wordBytes ws, v < 256 := by
  intro v hv
  obtain ⟨b, _, rfl⟩ := List.mem_map.mp hv
  exact b.toNat_lt

theorem leValue_words (d : U256) :
    (u256ToU32 d).toList.map leValue = (List.range 8).map (wordAt (d.toList.map UInt8.toNat)) := by
  refine List.ext_getElem (by simp) fun i h1 h2 => ?_
  have hi : i < 8 := by simpa using h1
  have key : ∀ j (hj : j < 32), (d.toList.map UInt8.toNat).getD j 0 = (d[j]).toNat := by
    intro j hj
    rw [List.getD_eq_getElem?_getD, List.getElem?_eq_getElem (by simpa using hj)]
    simp
  rw [List.getElem_map, List.getElem_map, List.getElem_range, wordAt, key _ (by omega), key _ (by omega),
    key _ (by omega), key _ (by omega), leValue]
  simp [u256ToU32, Nat.mul_comm]

theorem wordBytes_digest (d : U256) : wordBytes (u256ToU32 d).toList = d.toList.map UInt8.toNat := by
  rw [wordBytes]
  congr 1
  have h1 : d.toList = List.ofFn (n := 8 * 4) fun i => d[i.val] := by
    exact List.ext_getElem (by simp) fun i _ _ => by simp only [List.getElem_ofFn, Vector.getElem_toList]
  rw [h1, List.ofFn_mul, List.flatMap, u256ToU32, Vector.toList_ofFn, List.map_ofFn]
  congr 2

/-- The digest of the block absorbed next. -/
def digest (hash : List UInt8 → U256) (input ws : List U32) : U256 :=
  hash ((input ++ (List.replicate (8 - input.length) (fromU64 0) ++ ws)).flatMap Vector.toList)

/-- What `duplexing` does to a challenger whose state is eight zero words and eight words `ws`. -/
theorem native_duplexing {c : Chal U32} {ws : List U32} (hs : c.sponge = List.replicate 8 (fromU64 0) ++ ws)
    (hi : c.input.length ≤ 8) :
    ∃ c', c.duplexing 16 (blake3Perm hash) = some c' ∧ c'.input = [] ∧ c'.samples = c.samples ∧
      c'.output = (u256ToU32 (digest hash c.input ws)).toList ∧
      c'.sponge = List.replicate 8 (fromU64 0) ++ (u256ToU32 (digest hash c.input ws)).toList := by
  have hd : c.input ++ c.sponge.drop c.input.length =
      c.input ++ (List.replicate (8 - c.input.length) (fromU64 0) ++ ws) := by
    rw [hs, List.drop_append, List.drop_replicate, List.length_replicate,
      show c.input.length - 8 = 0 by omega, List.drop_zero]
  have hp : c.input.length ≤ 16 := by omega
  refine ⟨_, if_pos hp, rfl, rfl, ?_, ?_⟩
  · show ((blake3Perm hash (c.input ++ c.sponge.drop c.input.length)).drop (16 / 2)).take (16 - 16 / 2) = _
    rw [hd, blake3Perm, List.drop_append, List.drop_of_length_le (by simp)]
    simp only [List.length_replicate, List.nil_append]
    rw [show 16 / 2 - 8 = 0 from rfl, List.drop_zero, List.take_of_length_le (by simp)]
    rfl
  · show blake3Perm hash (c.input ++ c.sponge.drop c.input.length) = _
    rw [hd]; rfl

/-- Sampling from a full block. -/
theorem native_sampleWords {perm : List U32 → List U32} : ∀ {k : Nat} {c : Chal U32}, c.input = [] →
    k ≤ c.output.length →
    c.sampleWords 16 perm k = some (c.output.reverse.take k, { c with output := c.output.take (c.output.length - k) }) := by
  intro k
  induction k with
  | zero =>
    intro c _ _
    rw [Chal.sampleWords]
    simp
  | succ k ih =>
    intro c hi hk
    obtain ⟨o, w, ho⟩ : ∃ o w, c.output = o ++ [w] := by
      rcases List.eq_nil_or_concat c.output with h | ⟨o, w, h⟩
      · rw [h] at hk; simp at hk
      · exact ⟨o, w, by rw [h, List.concat_eq_append]⟩
    have h1 : c.sampleWord 16 perm = some (w, { c with output := o }) := by
      rw [Chal.sampleWord]
      simp [hi, ho]
    rw [Chal.sampleWords, h1]
    have hk' : k ≤ o.length := by rw [ho] at hk; simpa using hk
    have := ih (c := { c with output := o }) hi hk'
    simp only [Option.bind_eq_bind, Option.bind_some, this, ho]
    simp [List.take_append_of_le_length]

/-! ### Adding nodes -/

/-- `P'` has the nodes of `P` and new ones, which read no input. -/
structure Grow (K : Variable → Kind) (P : Expr → Prop) (n n' : Nat) (P' : Expr → Prop) : Prop where
  good : Good K n' P'
  safe : MultiSafe P'
  le : n ≤ n'
  sub : ∀ s, P s → P' s
  quiet : ∀ s v, P' s → Reads s v → P s

theorem Grow.refl (hg : Good K n P) (hs : MultiSafe P) : Grow K P n n P :=
  ⟨hg, hs, Nat.le_refl _, fun _ h => h, fun _ _ h _ => h⟩

theorem Grow.trans {P' P'' : Expr → Prop} {n' n'' : Nat} (h : Grow K P n n' P') (h' : Grow K P' n' n'' P'') :
    Grow K P n n'' P'' :=
  ⟨h'.good, h'.safe, h.le.trans h'.le, fun s hs => h'.sub s (h.sub s hs),
    fun s v hs hv => h.quiet s v (h'.quiet s v hs hv) hv⟩

/-- Adding a node with one result. -/
theorem Grow.node (hg : Good K n P) (hs : MultiSafe P) {size : Nat} {opc : Opc} {args : List Expr}
    (hargs : ∀ a ∈ args, P a ∧ ∃ m, a.varSize = some m)
    (types : opc.Types K (args.map (kinds K)) (opc.kinds K (args.map (kinds K))))
    (hsize : ∀ k, opc.kinds K (args.map (kinds K)) = [k] → size = k.size)
    (one : (opc = .sampleBase ∨ ∃ f n, opc = .lookup f n) → ∀ a ∈ args, a.size = 1)
    (hin : ∀ v, opc ≠ .inputMove v ∧ opc ≠ .inputCopy v)
    (ho : opc.outNum = some 1) (hfree : ∀ a ∈ args, a.opc.outNum = some 1 → Free P a) :
    Grow K P n (n + 1) (ins (.node (n + 1) opc size args) P) where
  good := Good.ins hg (fun s hs => by have := hg.le s hs; omega) (Nat.le_succ n) (Nat.le_refl _) hargs types hsize one
    (fun v hv => absurd hv (hin v).1) (fun v hv => absurd hv (hin v).2)
  safe := hs.ins hg (fun a ha => (hargs a ha).1) ho hfree
  le := Nat.le_succ n
  sub := fun _ h => ins_of h
  quiet := by
    rintro s v (rfl | hs) hv
    · rcases hv with hv | hv
      · exact absurd hv (hin v).1
      · exact absurd hv (hin v).2
    · exact hs

/-- Adding a sponge node with several results. -/
theorem Grow.multi (hg : Good K n P) (hs : MultiSafe P) {size : Nat} {opc : Opc} {args : List Expr}
    (hargs : ∀ a ∈ args, P a ∧ ∃ m, a.varSize = some m)
    (types : opc.Types K (args.map (kinds K)) (opc.kinds K (args.map (kinds K))))
    (hsize : ∀ k, opc.kinds K (args.map (kinds K)) = [k] → size = k.size)
    (ho : opc.Sponge) (hm : opc.outNum ≠ some 1)
    (hc : ∀ a ∈ args, a.opc.outNum = some 1 → a.opc.Sponge ∧ Orphan P a ∧ a.args = [])
    (hn : (args.map Expr.id).Nodup) :
    Grow K P n (n + 1) (ins (.node (n + 1) opc size args) P) := by
  have hin : ∀ v, opc ≠ .inputMove v ∧ opc ≠ .inputCopy v := fun v =>
    ⟨fun h => by rw [h] at ho; exact ho, fun h => by rw [h] at ho; exact ho⟩
  have hone : ¬ (opc = .sampleBase ∨ ∃ f n, opc = .lookup f n) := by
    rintro (rfl | ⟨_, _, rfl⟩) <;> exact ho
  refine ⟨Good.ins hg (fun s hs => by have := hg.le s hs; omega) (Nat.le_succ n) (Nat.le_refl _) hargs types hsize
    (fun h => absurd h hone) (fun v hv => absurd hv (hin v).1) (fun v hv => absurd hv (hin v).2),
    hs.insMulti hg (fun a ha => (hargs a ha).1) ho hm hc hn, Nat.le_succ n, fun _ h => ins_of h, ?_⟩
  rintro s v (rfl | hs) hv
  · rcases hv with hv | hv
    · exact absurd hv (hin v).1
    · exact absurd hv (hin v).2
  · exact hs

/-! ### Constants of bytes -/

/-- A node for the byte `v`. -/
structure IsByte (e : Expr) (v : Nat) : Prop where
  opc : e.opc = .constant [v]
  size : e.size = 1
  args : e.args = []
  lt : v < 256

theorem IsByte.kinds {e : Expr} {v : Nat} (h : IsByte e v) : TapStark.kinds K e = [.nat (v + 1)] := by
  cases e with
  | node id opc size args =>
    obtain rfl : opc = _ := h.opc
    rw [kinds_node]; rfl

theorem IsByte.eval {e : Expr} {v : Nat} (h : IsByte e v) : TapStark.eval env e = some [.nat v] := by
  rw [eval_eq, h.opc, h.args, evalArgs]
  have : v < 2 ^ 31 := Nat.lt_trans h.lt (by decide)
  show (constVal [v]).map ([·]) = _
  rw [constVal, if_pos this]
  rfl

theorem IsByte.outNum {e : Expr} {v : Nat} (h : IsByte e v) : e.opc.outNum = some 1 := by rw [h.opc]; rfl

theorem IsByte.sponge {e : Expr} {v : Nat} (h : IsByte e v) : e.opc.Sponge := by rw [h.opc]; trivial

theorem forall₂_mem {α β : Type} {R : α → β → Prop} {as : List α} {bs : List β} (h : List.Forall₂ R as bs) {a : α}
    (ha : a ∈ as) : ∃ b ∈ bs, R a b := by
  induction h with
  | nil => cases ha
  | cons h1 _ ih =>
    rcases List.mem_cons.mp ha with rfl | ha
    · exact ⟨_, List.mem_cons_self .., h1⟩
    · obtain ⟨b, hb, h2⟩ := ih ha
      exact ⟨b, List.mem_cons_of_mem _ hb, h2⟩

theorem evalArgs_bytes {es : List Expr} {vs : List Nat} (h : List.Forall₂ IsByte es vs) :
    evalArgs env es = some (vs.map fun v => [.nat v]) := by
  induction h with
  | nil => rw [evalArgs]; rfl
  | cons h1 _ ih => rw [evalArgs, h1.eval, ih]; rfl

/-- Nodes of `P`, none of which is an operand in `P`, with different identifiers. -/
def Pending (P : Expr → Prop) (es : List Expr) : Prop :=
  (∀ e ∈ es, P e ∧ Orphan P e) ∧ (es.map Expr.id).Nodup

theorem consts_inv : ∀ {vs : List Nat} {n : Nat} {P : Expr → Prop}, Good K n P → MultiSafe P → (∀ v ∈ vs, v < 256) →
    ∃ P', Grow K P n (ChalExpr.consts vs n).2 P' ∧ List.Forall₂ IsByte (ChalExpr.consts vs n).1 vs ∧
      (∀ e ∈ (ChalExpr.consts vs n).1, n < e.id) ∧ Pending P' (ChalExpr.consts vs n).1 ∧
      ∀ u, P u → Orphan P u → Orphan P' u := by
  intro vs
  induction vs with
  | nil =>
    intro n P hg hs _
    exact ⟨P, .refl hg hs, .nil, fun _ h => (by cases h), ⟨fun _ h => (by cases h), List.nodup_nil⟩, fun _ _ h => h⟩
  | cons v vs ih =>
    intro n P hg hs hv
    have hv0 : v < 256 := hv v (List.mem_cons_self ..)
    have hv1 : v < 2 ^ 31 := Nat.lt_trans hv0 (by decide)
    have g1 : Grow K P n (n + 1) (ins (.node (n + 1) (.constant [v]) 1 []) P) := by
      refine Grow.node hg hs (fun _ h => (by cases h)) ⟨rfl, .nat (v + 1), .nat v, rfl, ?_, ?_⟩ ?_ ?_ ?_ rfl
        (fun _ h => (by cases h))
      · rw [constVal, if_pos hv1]
      · exact ⟨Nat.lt_succ_self _, hv1⟩
      · intro k hk
        have : [Kind.nat (v + 1)] = [k] := hk
        cases this; rfl
      · rintro (h | ⟨_, _, h⟩) <;> cases h
      · exact fun v => ⟨fun h => (by cases h), fun h => (by cases h)⟩
    obtain ⟨P', g2, hb, hid, hp, ho⟩ := ih (n := n + 1) g1.good g1.safe fun w hw => hv w (List.mem_cons_of_mem _ hw)
    have e1 : ChalExpr.consts (v :: vs) n = (.node (n + 1) (.constant [v]) 1 [] :: (ChalExpr.consts vs (n + 1)).1,
        (ChalExpr.consts vs (n + 1)).2) := rfl
    rw [e1]
    have o1 : Orphan (ins (.node (n + 1) (.constant [v]) 1 []) P) (.node (n + 1) (.constant [v]) 1 []) :=
      orphan_new hg (fun s hs => by have := hg.le s hs; omega) (fun _ h => (by cases h))
    refine ⟨P', g1.trans g2, .cons ⟨rfl, rfl, rfl, hv0⟩ hb, ?_, ⟨?_, ?_⟩, ?_⟩
    · intro e he
      rcases List.mem_cons.mp he with rfl | he
      · exact Nat.lt_succ_self n
      · have := hid e he; omega
    · intro e he
      rcases List.mem_cons.mp he with rfl | he
      · exact ⟨g2.sub _ ins_self, ho _ ins_self o1⟩
      · exact hp.1 e he
    · rw [List.map_cons, List.nodup_cons]
      refine ⟨fun h => ?_, hp.2⟩
      obtain ⟨e, he, h1⟩ := List.mem_map.mp h
      have := hid e he
      rw [h1] at this
      exact Nat.lt_irrefl _ this
    · intro u hu hou
      exact ho u (ins_of hu) (hou.ins hg hu (fun _ h => (by cases h)) (by simp))

/-! ### The invariant -/

/-- A node for the upper half of the state, which is the words `ws`. -/
structure IsState (K : Variable → Kind) (env : Variable → Val) (e : Expr) (ws : List U32) : Prop where
  multi : e.opc.outNum ≠ some 1
  size : ∃ m, e.varSize = some m
  len : (kinds K e).length = 32
  byte : ∀ k ∈ kinds K e, ∃ B, B ≤ 256 ∧ k = .nat B
  eval : eval env e = some ((wordBytes ws).map Val.nat)

/-- The state and the buffered input of the two challengers agree. -/
structure ChalState (K : Variable → Kind) (env : Variable → Val) (n : Nat) (P : Expr → Prop) (c : Chal U32) (e : ChalExpr) :
    Prop where
  good : Good K n P
  safe : MultiSafe P
  state : ∃ zs st ws, e.sponge = zs ++ [st] ∧ List.Forall₂ IsByte zs (List.replicate 32 0) ∧ P st ∧
    IsState K env st ws ∧ ws.length = 8 ∧ c.sponge = List.replicate 8 (fromU64 0) ++ ws ∧ Pending P (zs ++ e.input)
  input : List.Forall₂ IsByte e.input (wordBytes c.input)

/-- A node for eight sampled words. -/
structure IsBlock (fs : Nat) (K : Variable → Kind) (env : Variable → Val) (P : Expr → Prop) (t : Expr) (out : List U32) :
    Prop where
  mem : P t
  opc : t.opc = .toSample
  size : t.size = fs
  eval : eval env t = some (out.reverse.map fun w => .nat (scriptWord w).val)
  len : out.length = 8

/-- The two challengers agree, the native one forgetting the rest of a block after a sample. -/
structure CInv (fs : Nat) (K : Variable → Kind) (env : Variable → Val) (n : Nat) (P : Expr → Prop) (c : Chal U32)
    (e : ChalExpr) : Prop extends ChalState K env n P c e where
  lt : c.input.length < 8
  output : e.output = [] ∧ c.output = [] ∨ ∃ t, e.output = [t] ∧ c.input = [] ∧ IsBlock fs K env P t c.output

theorem varSize_fs {e : Expr} (hf : fs = 1 ∨ fs = 4) (h : e.size = fs) : ∃ m, e.varSize = some m :=
  varSize_of (by rw [h]; exact hf)

theorem isByte_reverse {es : List Expr} {vs : List Nat} (h : List.Forall₂ IsByte es vs) :
    List.Forall₂ IsByte es.reverse vs.reverse := List.rel_reverse h

theorem duplexing_inv (hH : IsBlake3 hash) (hf : fs = 1 ∨ fs = 4) {c : Chal U32} {e : ChalExpr}
    (h : ChalState K env n P c e) (hi : c.input.length ≤ 8) (ho : e.output = []) :
    ∃ c' e' n' P', c.duplexing 16 (blake3Perm hash) = some c' ∧ e.duplexing fs n = some (e', n') ∧
      Grow K P n n' P' ∧ CInv fs K env n' P' c' e' ∧ c'.samples = c.samples ∧ c'.input = [] ∧ e'.input = [] ∧
      e'.output ≠ [] := by
  obtain ⟨zs, st, ws, h1, h2, h3, h4, h5, h6, h7, h8⟩ := h.state
  obtain ⟨c', n1, n2, n3, n4, n5⟩ := native_duplexing (hash := hash) h6 hi
  have hg := h.good
  have hlen : e.input.length = 4 * c.input.length := by rw [h.input.length_eq, wordBytes_length]
  have hzs : zs.length = 32 := by rw [h2.length_eq]; simp
  -- the byte operands
  have hbs : List.Forall₂ IsByte (e.input ++ zs.drop e.input.length)
      (wordBytes (c.input ++ List.replicate (8 - c.input.length) (fromU64 0))) := by
    rw [wordBytes_append, wordBytes_zero]
    refine List.rel_append h.input ?_
    have := List.forall₂_drop e.input.length h2
    rw [List.drop_replicate] at this
    rw [show 4 * (8 - c.input.length) = 32 - e.input.length by omega]
    exact this
  generalize hB : e.input ++ zs.drop e.input.length = bs at hbs
  have hst : (e.input ++ e.sponge.drop e.input.length).reverse = st :: bs.reverse := by
    rw [h1, List.drop_append, show e.input.length - zs.length = 0 by omega, List.drop_zero, ← List.append_assoc, hB,
      List.reverse_append]
    rfl
  have hbmem : ∀ x ∈ bs, x ∈ zs ++ e.input := by
    intro x hx
    rw [← hB] at hx
    rcases List.mem_append.mp hx with hx | hx
    · exact List.mem_append_right _ hx
    · exact List.mem_append_left _ (List.mem_of_mem_drop hx)
  have hblen : bs.length = 32 := by rw [hbs.length_eq, wordBytes_length]; simp; omega
  have hbnd : (bs.map Expr.id).Nodup := by
    have hp := h7
    rw [← hB, List.map_append]
    have h9 := h8
    rw [List.map_append, List.nodup_append] at h9
    rw [List.nodup_append]
    refine ⟨h9.2.1, ?_, fun a ha b hb hab => ?_⟩
    · exact List.Nodup.sublist ((List.drop_sublist _ _).map _) h9.1
    · refine h9.2.2 b ?_ a ha hab.symm
      exact ((List.drop_sublist _ _).map Expr.id).subset hb
  -- the hash node
  have gb : Grow K P n (n + 1) (ins (.node (n + 1) .blake3 fs (st :: bs.reverse)) P) := by
    refine Grow.multi hg h.safe ?_ ⟨?_, ?_, rfl⟩ ?_ trivial (by decide) ?_ ?_
    · intro a ha
      rcases List.mem_cons.mp ha with rfl | ha
      · exact ⟨h3, h4.size⟩
      · have ha := List.mem_reverse.mp ha
        obtain ⟨v, _, hv⟩ := forall₂_mem hbs ha
        exact ⟨(h7 a (hbmem a ha)).1, varSize_of (.inl hv.size)⟩
    · rw [List.map_cons, List.map_cons, h4.len]
      congr 1
      rw [List.eq_replicate_iff]
      refine ⟨by simp [hblen], fun l hl => ?_⟩
      obtain ⟨ks, hks, rfl⟩ := List.mem_map.mp hl
      obtain ⟨x, hx, rfl⟩ := List.mem_map.mp hks
      obtain ⟨v, _, hv⟩ := forall₂_mem hbs (List.mem_reverse.mp hx)
      rw [hv.kinds]; rfl
    · intro ks hks k hk
      rw [List.map_cons] at hks
      rcases List.mem_cons.mp hks with rfl | hks
      · exact h4.byte k hk
      · obtain ⟨x, hx, rfl⟩ := List.mem_map.mp hks
        obtain ⟨v, _, hv⟩ := forall₂_mem hbs (List.mem_reverse.mp hx)
        rw [hv.kinds, List.mem_singleton] at hk
        exact ⟨v + 1, hv.lt, hk⟩
    · intro k hk
      have := congrArg List.length hk
      simp [Opc.kinds] at this
    · intro a ha hsg
      rcases List.mem_cons.mp ha with rfl | ha
      · exact absurd hsg h4.multi
      · have ha := List.mem_reverse.mp ha
        obtain ⟨v, _, hv⟩ := forall₂_mem hbs ha
        exact ⟨hv.sponge, (h7 a (hbmem a ha)).2, hv.args⟩
    · rw [List.map_cons, List.nodup_cons, List.map_reverse, List.nodup_reverse]
      refine ⟨fun hc => ?_, hbnd⟩
      obtain ⟨x, hx, hid⟩ := List.mem_map.mp (List.mem_reverse.mp hc)
      obtain ⟨v, _, hv⟩ := forall₂_mem hbs hx
      have := hg.uniq x st (h7 x (hbmem x hx)).1 h3 hid
      subst this
      exact h4.multi hv.outNum
  -- its value
  have hval : eval env (.node (n + 1) .blake3 fs (st :: bs.reverse)) =
      some (((digest hash c.input ws).toList.map UInt8.toNat).map Val.nat) := by
    rw [eval, evalArgs, h4.eval, evalArgs_bytes (isByte_reverse hbs)]
    show Opc.denote env .blake3 _ = _
    rw [Opc.denote]
    congr 2
    have hl : ((c.input ++ (List.replicate (8 - c.input.length) (fromU64 0) ++ ws)).flatMap Vector.toList).length = 64 := by
      have := wordBytes_length (c.input ++ (List.replicate (8 - c.input.length) (fromU64 0) ++ ws))
      rw [wordBytes, List.length_map] at this
      rw [this]
      simp [h5]; omega
    rw [digest, hH _ hl]
    congr 1
    rw [List.reverse_cons, List.map_reverse, List.reverse_reverse, List.flatten_append]
    have hfl : ∀ vs : List Nat, (vs.map fun v => [Val.nat v]).flatten = vs.map Val.nat := by
      intro vs
      induction vs with
      | nil => rfl
      | cons v vs ih => rw [List.map_cons, List.flatten_cons, ih]; rfl
    rw [hfl, List.flatten_singleton, ← List.map_append, ← wordBytes_append, List.map_map, wordBytes, List.map_map,
      List.append_assoc]
    conv_rhs => rw [← List.map_id (List.flatMap _ _)]
    refine List.map_congr_left fun b _ => ?_
    show UInt8.ofNat b.toNat = b
    exact UInt8.ofNat_toNat
  -- the new state
  obtain ⟨P2, gz, hz, hzid, hzp, hzo⟩ := consts_inv (vs := List.replicate 32 0) gb.good gb.safe
    (fun v hv => by rw [List.mem_replicate] at hv; omega)
  generalize hZ : ChalExpr.consts (List.replicate 32 0) (n + 1) = Z at gz hz hzid hzp
  have hb2 : P2 (.node (n + 1) .blake3 fs (st :: bs.reverse)) := gz.sub _ ins_self
  have gt : Grow K P2 Z.2 (Z.2 + 1)
      (ins (.node (Z.2 + 1) .toSample fs [.node (n + 1) .blake3 fs (st :: bs.reverse)]) P2) := by
    refine Grow.multi gz.good gz.safe ?_ ⟨?_, rfl⟩ ?_ trivial (by decide) ?_ ?_
    · intro a ha
      rw [List.mem_singleton] at ha
      subst ha
      exact ⟨hb2, varSize_fs hf rfl⟩
    · rw [List.map_singleton, kinds_node]; rfl
    · intro k hk
      have := congrArg List.length hk
      simp [Opc.kinds] at this
    · intro a ha hsg
      rw [List.mem_singleton] at ha
      subst ha
      exact absurd hsg (show Opc.blake3.outNum ≠ some 1 by decide)
    · simp
  refine ⟨c', ⟨Z.1 ++ [.node (n + 1) .blake3 fs (st :: bs.reverse)], [],
    [.node (Z.2 + 1) .toSample fs [.node (n + 1) .blake3 fs (st :: bs.reverse)]]⟩, Z.2 + 1,
    _, n1, ?_, (gb.trans gz).trans gt, ⟨⟨gt.good, gt.safe, ⟨Z.1, _, _, rfl, hz, ins_of hb2, ⟨?_, varSize_fs hf rfl, ?_, ?_, ?_⟩,
      ?_, n5, ?_⟩, ?_⟩, by rw [n2]; decide, .inr ⟨_, rfl, n2, ⟨ins_self, rfl, rfl, ?_, ?_⟩⟩⟩, n3, n2, rfl, by simp⟩
  · rw [ChalExpr.duplexing, if_pos (by omega)]
    simp only [hst, ho, List.nil_append, Dsl.blake3, Dsl.toSample, Dsl.mk, hZ]
  · show Opc.blake3.outNum ≠ some 1
    decide
  · rw [kinds_node]; rfl
  · intro k hk
    rw [kinds_node] at hk
    exact ⟨256, Nat.le_refl _, (List.mem_replicate.mp hk).2⟩
  · rw [hval]
    rw [wordBytes_digest]
  · simp
  · rw [List.append_nil]
    refine ⟨fun x hx => ⟨ins_of (hzp.1 x hx).1, ?_⟩, hzp.2⟩
    refine (hzp.1 x hx).2.ins gz.good (hzp.1 x hx).1 (fun a ha => ?_) ?_
    · rw [List.mem_singleton] at ha
      subst ha
      exact hb2
    · rw [List.mem_singleton]
      rintro rfl
      have := hzid _ hx
      exact Nat.lt_irrefl _ this
  · rw [n2]; exact .nil
  · rw [eval, evalArgs_one, hval, Option.map_some, Option.bind_some]
    rw [Opc.denote, n4]
    congr 1
    rw [List.map_map]
    have hw := leValue_words (digest hash c.input ws)
    have h9 : (u256ToU32 (digest hash c.input ws)).toList.reverse.map (fun w => Val.nat (scriptWord w).val) =
        ((u256ToU32 (digest hash c.input ws)).toList.map leValue).reverse.map fun v => Val.nat (sampleValue v).val := by
      rw [List.map_reverse, List.map_reverse, List.map_map]; rfl
    have h10 : ∀ l : List Nat, l.map (Val.toNat ∘ Val.nat) = l := fun l => List.map_id l
    rw [h9, hw, ← List.map_reverse, List.map_map (l := (List.range 8).reverse), h10]
    rfl
  · rw [n4]; simp

theorem observe_inv (hH : IsBlake3 hash) (hf : fs = 1 ∨ fs = 4) {c : Chal U32} {e : ChalExpr}
    (h : CInv fs K env n P c e) (v : U32) :
    ∃ c' e' n' P', c.observe 16 (blake3Perm hash) v = some c' ∧ e.observe fs v n = some (e', n') ∧
      Grow K P n n' P' ∧ CInv fs K env n' P' c' e' ∧ c'.samples = c.samples := by
  obtain ⟨zs, st, ws, h1, h2, h3, h4, h5, h6, h7, h8⟩ := h.state
  have hb : wordBytes [v] = v.toList.map UInt8.toNat := by simp [wordBytes]
  obtain ⟨P1, g1, hz, hzid, hzp, hzo⟩ := consts_inv (vs := v.toList.map UInt8.toNat) h.good h.safe
    (by rw [← hb]; exact wordBytes_lt _)
  generalize hZ : ChalExpr.consts (v.toList.map UInt8.toNat) n = Z at g1 hz hzid hzp
  have hs : ChalState K env Z.2 P1 { c with output := [], input := c.input ++ [v] } ⟨e.sponge, e.input ++ Z.1, []⟩ := by
    refine ⟨g1.good, g1.safe, ⟨zs, st, ws, h1, h2, g1.sub _ h3, h4, h5, h6, ?_, ?_⟩, ?_⟩
    · intro x hx
      rw [← List.append_assoc] at hx
      rcases List.mem_append.mp hx with hx | hx
      · exact ⟨g1.sub _ (h7 x hx).1, hzo x (h7 x hx).1 (h7 x hx).2⟩
      · exact hzp.1 x hx
    · rw [← List.append_assoc, List.map_append, List.nodup_append]
      refine ⟨h8, hzp.2, fun a ha b hb hab => ?_⟩
      obtain ⟨x, hx, rfl⟩ := List.mem_map.mp ha
      obtain ⟨y, hy, rfl⟩ := List.mem_map.mp hb
      have := h.good.le x (h7 x hx).1
      have := hzid y hy
      omega
    · show List.Forall₂ IsByte (e.input ++ Z.1) (wordBytes (c.input ++ [v]))
      rw [wordBytes_append, hb]
      exact List.rel_append h.input hz
  have hlen : (e.input ++ Z.1).length = 4 * (c.input.length + 1) := by
    rw [List.length_append, h.input.length_eq, hz.length_eq, wordBytes_length]
    simp; omega
  have hlt := h.lt
  have hl8 : (c.input ++ [v]).length = c.input.length + 1 := by simp
  rw [Chal.observe, ChalExpr.observe, hZ]
  by_cases hfull : c.input.length + 1 = 8
  · obtain ⟨c', e', n', P', d1, d2, d3, d4, d5, _⟩ := duplexing_inv hH hf hs (by rw [hl8]; omega) rfl
    refine ⟨c', e', n', P', ?_, ?_, g1.trans d3, d4, d5⟩
    · rw [if_pos (show (c.input ++ [v]).length = 16 / 2 by rw [hl8, hfull])]
      exact d1
    · simp only []
      rw [if_pos (by rw [hlen]; omega)]
      exact d2
  · refine ⟨_, _, _, P1, if_neg (show ¬ (c.input ++ [v]).length = 16 / 2 by rw [hl8]; exact hfull), ?_, g1,
      ⟨hs, by rw [hl8]; omega, .inl ⟨rfl, rfl⟩⟩, rfl⟩
    simp only []
    rw [if_neg (by rw [hlen]; omega)]

theorem observeAll_inv (hH : IsBlake3 hash) (hf : fs = 1 ∨ fs = 4) : ∀ {vs : List U32} {n : Nat} {P : Expr → Prop}
    {c : Chal U32} {e : ChalExpr}, CInv fs K env n P c e →
    ∃ c' e' n' P', c.observeAll 16 (blake3Perm hash) vs = some c' ∧ e.observeAll fs vs n = some (e', n') ∧
      Grow K P n n' P' ∧ CInv fs K env n' P' c' e' ∧ c'.samples = c.samples := by
  intro vs
  induction vs with
  | nil =>
    intro n P c e h
    exact ⟨c, e, n, P, rfl, rfl, .refl h.good h.safe, h, rfl⟩
  | cons v vs ih =>
    intro n P c e h
    obtain ⟨c1, e1, n1, P1, a1, a2, a3, a4, a5⟩ := observe_inv hH hf h v
    obtain ⟨c2, e2, n2, P2, b1, b2, b3, b4, b5⟩ := ih a4
    refine ⟨c2, e2, n2, P2, ?_, ?_, a3.trans b3, b4, b5.trans a5⟩
    · rw [Chal.observeAll, List.foldlM_cons, a1]
      exact b1
    · rw [ChalExpr.observeAll, a2]
      exact b2

/-- A node for a sample made of the words `ws`. -/
structure IsSample (fs : Nat) (K : Variable → Kind) (env : Variable → Val) (P : Expr → Prop) (x : Expr) (ws : List U32) :
    Prop where
  mem : P x
  opc : x.opc = .sampleBase ∨ x.opc = .sampleExt
  size : x.size = fs
  kind : kinds K x = [if fs = 1 then .base else .ext]
  len : ws.length = fs
  eval : eval env x = some [wordsVal scriptWord ws]

theorem sample_inv (hH : IsBlake3 hash) (hf : fs = 1 ∨ fs = 4) {c : Chal U32} {e : ChalExpr}
    (h : CInv fs K env n P c e) :
    ∃ ws c' x e' n' P', c.sample 16 (blake3Perm hash) fs = some (ws, c') ∧ e.sample fs n = some (x, e', n') ∧
      Grow K P n n' P' ∧ CInv fs K env n' P' { c' with output := [] } e' ∧ c'.samples = c.samples ++ [ws] ∧
      IsSample fs K env P' x ws := by
  -- after the duplexing, if any
  have step : ∃ c1 e1 n1 P1, (if !c.input.isEmpty || c.output.isEmpty then c.duplexing 16 (blake3Perm hash) else some c) =
        some c1 ∧ (if !e.input.isEmpty || e.output.isEmpty then e.duplexing fs n else some (e, n)) = some (e1, n1) ∧
      Grow K P n n1 P1 ∧ CInv fs K env n1 P1 c1 e1 ∧ c1.samples = c.samples ∧ c1.input = [] ∧ e1.output ≠ [] := by
    have hin : e.input.isEmpty = c.input.isEmpty := by
      have := h.input.length_eq
      rw [wordBytes_length] at this
      cases h1 : e.input <;> cases h2 : c.input <;> simp_all
    rcases h.output with ⟨o1, o2⟩ | ⟨t, o1, o2, o3⟩
    · obtain ⟨c', e', n', P', d1, d2, d3, d4, d5, d6, d7, d8⟩ := duplexing_inv hH hf h.toChalState (Nat.le_of_lt h.lt) o1
      refine ⟨c', e', n', P', ?_, ?_, d3, d4, d5, d6, d8⟩
      · rw [o2]; simpa using d1
      · rw [o1]; simpa using d2
    · refine ⟨c, e, n, P, ?_, ?_, .refl h.good h.safe, h, rfl, o2, by rw [o1]; simp⟩
      · have : c.output ≠ [] := by
          intro hc
          have := o3.len
          rw [hc] at this
          cases this
        rw [o2]
        simp [this]
      · rw [hin, o2, o1]; rfl
  obtain ⟨c1, e1, n1, P1, s1, s2, g1, h1, hsm, hi1, ho1⟩ := step
  obtain ⟨t, o1, _, o3⟩ := h1.output.resolve_left fun hc => ho1 hc.1
  have hfs8 : fs ≤ c1.output.length := by rw [o3.len]; omega
  -- the native words
  have hw := native_sampleWords (perm := blake3Perm hash) hi1 hfs8
  have hnat : c.sample 16 (blake3Perm hash) fs = some (c1.output.reverse.take fs,
      { c1 with output := c1.output.take (c1.output.length - fs), samples := c1.samples ++ [c1.output.reverse.take fs] }) := by
    have hwd : ∀ k, 0 < k → c.sampleWords 16 (blake3Perm hash) k = c1.sampleWords 16 (blake3Perm hash) k := by
      intro k hk
      obtain ⟨k, rfl⟩ : ∃ j, k = j + 1 := ⟨k - 1, by omega⟩
      have hne : c1.output ≠ [] := by intro hc; have := o3.len; rw [hc] at this; cases this
      have hw1 : c.sampleWord 16 (blake3Perm hash) = c1.sampleWord 16 (blake3Perm hash) := by
        have h11 : c1.sampleWord 16 (blake3Perm hash) =
            c1.output.getLast?.bind fun v => some (v, { c1 with output := c1.output.dropLast }) := by
          rw [Chal.sampleWord]
          simp [hi1, hne]
        rw [h11, Chal.sampleWord]
        by_cases hcond : (!c.input.isEmpty || c.output.isEmpty) = true
        · rw [if_pos hcond] at s1 ⊢
          rw [s1]; rfl
        · rw [if_neg hcond] at s1 ⊢
          cases s1; rfl
      rw [Chal.sampleWords, hw1, Chal.sampleWords]
    rw [Chal.sample, if_pos hf, hwd fs (by omega), hw]
    rfl
  -- the node
  let opc : Opc := if fs = 1 then .sampleBase else .sampleExt
  have hkt : kinds K t = List.replicate 8 .base := by
    have h9 := o3.opc
    cases t with
    | node id op size args =>
      obtain rfl : op = _ := h9
      rw [kinds_node]; rfl
  have hopc : opc = .sampleBase ∧ fs = 1 ∨ opc = .sampleExt ∧ fs = 4 := by
    rcases hf with rfl | rfl
    · exact .inl ⟨rfl, rfl⟩
    · exact .inr ⟨rfl, rfl⟩
  have hsg : opc.outNum = some 1 := by rcases hopc with ⟨h, _⟩ | ⟨h, _⟩ <;> rw [h] <;> rfl
  have gx : Grow K P1 n1 (n1 + 1) (ins (.node (n1 + 1) opc fs [t]) P1) := by
    refine Grow.node h1.good h1.safe ?_ ?_ ?_ ?_ ?_ hsg ?_
    · intro a ha
      rw [List.mem_singleton] at ha
      subst ha
      exact ⟨o3.mem, varSize_fs hf o3.size⟩
    · rw [List.map_singleton, hkt]
      rcases hopc with ⟨h, _⟩ | ⟨h, _⟩ <;> rw [h] <;> exact ⟨rfl, rfl⟩
    · intro k hk
      rcases hopc with ⟨h, h'⟩ | ⟨h, h'⟩ <;> rw [h] at hk
      · have : [Kind.base] = [k] := hk
        cases this; exact h'
      · have : [Kind.ext] = [k] := hk
        cases this; exact h'
    · intro h9 a ha
      rw [List.mem_singleton] at ha
      subst ha
      rw [o3.size]
      rcases hopc with ⟨_, h'⟩ | ⟨h, _⟩
      · exact h'
      · rw [h] at h9
        rcases h9 with h9 | ⟨_, _, h9⟩ <;> cases h9
    · intro v
      rcases hopc with ⟨h, _⟩ | ⟨h, _⟩ <;> rw [h] <;> exact ⟨fun h => (by cases h), fun h => (by cases h)⟩
    · intro a ha h9
      rw [List.mem_singleton] at ha
      subst ha
      rw [o3.opc] at h9
      cases h9
  refine ⟨c1.output.reverse.take fs, _, .node (n1 + 1) opc fs [t], ⟨e1.sponge, e1.input, []⟩, n1 + 1, _, hnat, ?_,
    g1.trans gx, ?_, by rw [hsm], ⟨ins_self, ?_, rfl, ?_, ?_, ?_⟩⟩
  · rw [ChalExpr.sample, if_pos hf]
    have hfin : (e1.output.getLast?.bind fun t => some ((if fs = 1 then Dsl.sampleBase t n1 else Dsl.sampleExt t n1).1,
        ({ e1 with output := e1.output.dropLast } : ChalExpr),
        (if fs = 1 then Dsl.sampleBase t n1 else Dsl.sampleExt t n1).2)) =
        some (.node (n1 + 1) opc fs [t], ⟨e1.sponge, e1.input, []⟩, n1 + 1) := by
      rw [o1]
      rcases hopc with ⟨h, rfl⟩ | ⟨h, rfl⟩ <;> rw [h] <;> rfl
    rw [← hfin]
    by_cases hcond : (!e.input.isEmpty || e.output.isEmpty) = true
    · rw [if_pos hcond] at s2
      simp only [if_pos hcond, s2]; rfl
    · rw [if_neg hcond] at s2
      cases s2
      simp only [if_neg hcond]; rfl
  · obtain ⟨zs, st, ws, h1', h2, h3, h4, h5, h6, h7, h8⟩ := h1.state
    refine ⟨⟨gx.good, gx.safe, ⟨zs, st, ws, h1', h2, ins_of h3, h4, h5, h6, fun x hx => ⟨ins_of (h7 x hx).1, ?_⟩, h8⟩,
      h1.input⟩, h1.lt, .inl ⟨rfl, rfl⟩⟩
    refine (h7 x hx).2.ins h1.good (h7 x hx).1 (fun a ha => ?_) ?_
    · rw [List.mem_singleton] at ha
      subst ha
      exact o3.mem
    · rw [List.mem_singleton]
      rintro rfl
      have h9 : ∃ v, IsByte x v := by
        rcases List.mem_append.mp hx with hx | hx
        · obtain ⟨v, _, hv⟩ := forall₂_mem h2 hx; exact ⟨v, hv⟩
        · obtain ⟨v, _, hv⟩ := forall₂_mem h1.input hx; exact ⟨v, hv⟩
      obtain ⟨v, hv⟩ := h9
      have := hv.opc
      rw [o3.opc] at this
      cases this
  · rcases hopc with ⟨h, _⟩ | ⟨h, _⟩
    · exact .inl h
    · exact .inr h
  · rw [kinds_node]
    rcases hopc with ⟨h, rfl⟩ | ⟨h, rfl⟩ <;> rw [h] <;> rfl
  · simp [o3.len]; omega
  · rw [eval, evalArgs_one, o3.eval, Option.map_some, Option.bind_some]
    have hl := o3.len
    rw [← List.length_reverse] at hl
    generalize c1.output.reverse = out at hl ⊢
    match out, hl with
    | [a, b, c, d, _, _, _, _], _ =>
      rcases hopc with ⟨h, rfl⟩ | ⟨h, rfl⟩ <;> rw [h]
      · rfl
      · simp [Opc.denote, wordsVal]

theorem new_inv (fs n : Nat) (hg : Good K n P) (hs : MultiSafe P) :
    ∃ P', Grow K P n (ChalExpr.new n).2 P' ∧ CInv fs K env (ChalExpr.new n).2 P' (Chal.new 16 (fromU64 0)) (ChalExpr.new n).1 := by
  obtain ⟨P1, g1, hz, hzid, hzp, hzo⟩ := consts_inv (vs := List.replicate 32 0) hg hs
    (fun v hv => by rw [List.mem_replicate] at hv; omega)
  have e1 : ChalExpr.new n = (⟨(ChalExpr.consts (List.replicate 32 0) n).1 ++
      [.node ((ChalExpr.consts (List.replicate 32 0) n).2 + 1) (.table (List.replicate 32 [0])) 1 []], [], []⟩,
      (ChalExpr.consts (List.replicate 32 0) n).2 + 1) := rfl
  generalize hZ : ChalExpr.consts (List.replicate 32 0) n = Z at g1 hz hzid hzp e1
  rw [e1]
  have hk : (List.replicate 32 [0]).map constKind = List.replicate 32 (.nat 1) := rfl
  have hc : constVal [0] = some (.nat 0) := by rw [constVal, if_pos (by decide)]
  have gx : Grow K P1 Z.2 (Z.2 + 1) (ins (.node (Z.2 + 1) (.table (List.replicate 32 [0])) 1 []) P1) := by
    refine Grow.multi g1.good g1.safe (fun _ h => (by cases h)) ⟨rfl, ?_⟩ ?_ trivial (by decide) (fun _ h => (by cases h))
      (by simp)
    · show List.Forall₂ _ (List.replicate 32 [0]) ((List.replicate 32 [0]).map constKind)
      rw [hk]
      generalize 32 = k
      induction k with
      | zero => exact .nil
      | succ k ih =>
        rw [List.replicate_succ, List.replicate_succ]
        exact .cons ⟨_, hc, Nat.lt_succ_self _, by decide⟩ ih
    · intro k hk
      have := congrArg List.length hk
      simp [Opc.kinds] at this
  refine ⟨_, g1.trans gx, ⟨⟨gx.good, gx.safe, ⟨Z.1, _, List.replicate 8 (fromU64 0), rfl, hz, ins_self,
    ⟨?_, varSize_of (.inl rfl), ?_, ?_, ?_⟩, by simp, rfl, ?_⟩, ?_⟩, by decide, .inl ⟨rfl, rfl⟩⟩⟩
  · show Opc.outNum (.table (List.replicate 32 [0])) ≠ some 1
    simp [Opc.outNum]
  · rw [kinds_node]
    show ((List.replicate 32 [0]).map constKind).length = 32
    rw [hk]; simp
  · intro k hk'
    rw [kinds_node] at hk'
    have hk' : k ∈ (List.replicate 32 [0]).map constKind := hk'
    rw [hk] at hk'
    exact ⟨1, by decide, (List.mem_replicate.mp hk').2⟩
  · rw [eval, evalArgs, Option.bind_some]
    show (List.replicate 32 [0]).mapM constVal = _
    rw [wordBytes_zero]

    have : ∀ k, (List.replicate k [0]).mapM constVal = some ((List.replicate k 0).map Val.nat) := by
      intro k
      induction k with
      | zero => rfl
      | succ k ih => rw [List.replicate_succ, List.mapM_cons, hc, ih]; rfl
    exact this 32
  · rw [List.append_nil]
    exact ⟨fun x hx => ⟨ins_of (hzp.1 x hx).1,
      (hzp.1 x hx).2.ins g1.good (hzp.1 x hx).1 (fun _ h => (by cases h)) (by simp)⟩, hzp.2⟩
  · exact .nil

/-! ### Checks -/

/-- Byte constants that are no operands stay so. -/
def Keeps (P P' : Expr → Prop) : Prop := ∀ u v, P u → IsByte u v → Orphan P u → Orphan P' u

theorem Keeps.trans {P' P'' : Expr → Prop} (h : Keeps P P') (hs : ∀ s, P s → P' s) (h' : Keeps P' P'') : Keeps P P'' :=
  fun u v hu hb ho => h' u v (hs u hu) hb (h u v hu hb ho)

theorem CInv.keep {c : Chal U32} {e : ChalExpr} (h : CInv fs K env n P c e) {n' : Nat} {P' : Expr → Prop}
    (g : Grow K P n n' P') (k : Keeps P P') : CInv fs K env n' P' c e := by
  obtain ⟨zs, st, ws, h1, h2, h3, h4, h5, h6, h7, h8⟩ := h.state
  refine ⟨⟨g.good, g.safe, ⟨zs, st, ws, h1, h2, g.sub _ h3, h4, h5, h6, fun x hx => ⟨g.sub _ (h7 x hx).1, ?_⟩, h8⟩,
    h.input⟩, h.lt, ?_⟩
  · have h9 : ∃ v, IsByte x v := by
      rcases List.mem_append.mp hx with hx | hx
      · obtain ⟨v, _, hv⟩ := forall₂_mem h2 hx; exact ⟨v, hv⟩
      · obtain ⟨v, _, hv⟩ := forall₂_mem h.input hx; exact ⟨v, hv⟩
    obtain ⟨v, hv⟩ := h9
    exact k x v (h7 x hx).1 hv (h7 x hx).2
  · rcases h.output with ho | ⟨t, o1, o2, o3⟩
    · exact .inl ho
    · exact .inr ⟨t, o1, o2, g.sub _ o3.mem, o3.opc, o3.size, o3.eval, o3.len⟩

theorem keeps_ins (hg : Good K n P) {id size : Nat} {opc : Opc} {args : List Expr} (hargs : ∀ a ∈ args, P a)
    (hc : ∀ a ∈ args, ∀ vs, a.opc ≠ .constant vs) : Keeps P (ins (.node id opc size args) P) := by
  intro u v hu hb ho
  exact ho.ins hg hu hargs fun h => hc u h _ hb.opc

/-- A node with one result of kind `k` that is not a constant. -/
structure IsTyped (K : Variable → Kind) (P : Expr → Prop) (x : Expr) (k : Kind) : Prop where
  mem : P x
  opc : ¬ x.opc.Sponge
  single : x.opc.outNum = some 1
  size : ∃ m, x.varSize = some m
  kind : kinds K x = [k]

/-- Such a node whose evaluation succeeds. -/
structure IsValue (K : Variable → Kind) (env : Variable → Val) (P : Expr → Prop) (x : Expr) (k : Kind) (v : Val) : Prop
    extends IsTyped K P x k where
  eval : eval env x = some [v]

theorem IsTyped.not_const {x : Expr} {k : Kind} (h : IsTyped K P x k) : ∀ vs, x.opc ≠ .constant vs :=
  fun vs hc => h.opc (by rw [hc]; trivial)

theorem IsTyped.mono {P' : Expr → Prop} {x : Expr} {k : Kind} (h : IsTyped K P x k)
    (hP : ∀ s, P s → P' s) : IsTyped K P' x k := { h with mem := hP _ h.mem }

theorem IsValue.mono {P' : Expr → Prop} {x : Expr} {k : Kind} {v : Val} (h : IsValue K env P x k v)
    (hP : ∀ s, P s → P' s) : IsValue K env P' x k v := { h with mem := hP _ h.mem }

theorem IsSample.value {x : Expr} {ws : List U32} (hf : fs = 1 ∨ fs = 4) (h : IsSample fs K env P x ws) :
    IsValue K env P x (if fs = 1 then .base else .ext) (wordsVal scriptWord ws) where
  mem := h.mem
  opc := by rcases h.opc with h | h <;> rw [h] <;> exact id
  single := by rcases h.opc with h | h <;> rw [h] <;> rfl
  size := varSize_fs hf h.size
  kind := h.kind
  eval := h.eval

/-- Adding an operation on nodes that are not constants. -/
theorem typed_node (hg : Good K n P) (hs : MultiSafe P) {opc : Opc} {size : Nat} {args : List Expr} {k : Kind}
    (hargs : ∀ a ∈ args, ∃ k, IsTyped K P a k)
    (types : opc.Types K (args.map (kinds K)) (opc.kinds K (args.map (kinds K))))
    (hk : opc.kinds K (args.map (kinds K)) = [k]) (hsize : size = k.size)
    (hin : ∀ v, opc ≠ .inputMove v ∧ opc ≠ .inputCopy v)
    (hone : ¬ (opc = .sampleBase ∨ ∃ f n, opc = .lookup f n)) (ho : opc.outNum = some 1) (hsp : ¬ opc.Sponge) :
    Grow K P n (n + 1) (ins (.node (n + 1) opc size args) P) ∧ Keeps P (ins (.node (n + 1) opc size args) P) ∧
      IsTyped K (ins (.node (n + 1) opc size args) P) (.node (n + 1) opc size args) k := by
  have hm : ∀ a ∈ args, P a := fun a ha => by obtain ⟨_, h⟩ := hargs a ha; exact h.mem
  refine ⟨Grow.node hg hs ?_ types ?_ (fun h => absurd h hone) hin ho ?_, keeps_ins hg hm ?_,
    ⟨ins_self, hsp, ho, ?_, by rw [kinds_node, hk]⟩⟩
  · intro a ha
    obtain ⟨_, h⟩ := hargs a ha
    exact ⟨h.mem, h.size⟩
  · intro k' hk'
    rw [hk] at hk'
    cases hk'
    exact hsize
  · intro a ha _
    obtain ⟨_, h⟩ := hargs a ha
    exact hs.free h.opc
  · intro a ha
    obtain ⟨_, h⟩ := hargs a ha
    exact h.not_const
  · refine varSize_of ?_
    show size = 1 ∨ size = 4
    rw [hsize]
    cases k with
    | nat B => exact .inl rfl
    | ext => exact .inr rfl

/-- The same for nodes that evaluate. -/
theorem value_node (hg : Good K n P) (hs : MultiSafe P) {opc : Opc} {size : Nat} {args : List Expr} {k : Kind} {v : Val}
    (hargs : ∀ a ∈ args, ∃ k v, IsValue K env P a k v)
    (types : opc.Types K (args.map (kinds K)) (opc.kinds K (args.map (kinds K))))
    (hk : opc.kinds K (args.map (kinds K)) = [k]) (hsize : size = k.size)
    (hin : ∀ v, opc ≠ .inputMove v ∧ opc ≠ .inputCopy v)
    (hone : ¬ (opc = .sampleBase ∨ ∃ f n, opc = .lookup f n)) (ho : opc.outNum = some 1) (hsp : ¬ opc.Sponge)
    (hev : (evalArgs env args).bind (opc.denote env) = some [v]) :
    Grow K P n (n + 1) (ins (.node (n + 1) opc size args) P) ∧ Keeps P (ins (.node (n + 1) opc size args) P) ∧
      IsValue K env (ins (.node (n + 1) opc size args) P) (.node (n + 1) opc size args) k v := by
  obtain ⟨h1, h2, h3⟩ := typed_node hg hs
    (fun a ha => by obtain ⟨k, _, h⟩ := hargs a ha; exact ⟨k, h.toIsTyped⟩) types hk hsize hin hone ho hsp
  exact ⟨h1, h2, h3, by rw [eval, hev]⟩

open Classical in
/-- The outcome of comparing two values: comparing extension field elements fails the script. -/
noncomputable def cmpVal : Val → Val → Option Bool
  | .ext x, .ext y => if x = y then some true else none
  | .nat x, .nat y => some (decide (x = y))
  | _, _ => none

/-- `equal_for_f` and `equal_for_u32_vec` of any typed node. -/
theorem equalC_typed (hg : Good K n P) (hs : MultiSafe P) {x : Expr} {k : Kind} {w : Val} {cs : List Nat}
    (hx : IsTyped K P x k) (hc : constVal cs = some w)
    (hk : k = .ext ∧ constKind cs = .ext ∨ k.IsNum ∧ (constKind cs).IsNum) :
    ∃ P', Grow K P n (Dsl.equalC x cs n).2 P' ∧ Keeps P P' ∧ P' (Dsl.equalC x cs n).1 ∧
      (Dsl.equalC x cs n).1.opc = .equal ∧ kinds K (Dsl.equalC x cs n).1 = [.nat 2] ∧
      eval env (Dsl.equalC x cs n).1 = (eval env x).bind fun r => Opc.denote env .equal [r, [w]] := by
  have hw := constVal_has hc
  have hlen : cs.length = (constKind cs).size := by
    unfold constVal at hc
    split at hc
    · rfl
    · rfl
    · cases hc
  have g1 : Grow K P n (n + 1) (ins (.node (n + 1) (.constant cs) cs.length []) P) := by
    refine Grow.node hg hs (fun _ h => (by cases h)) ⟨rfl, constKind cs, w, rfl, hc, hw⟩ ?_ ?_ ?_ rfl
      (fun _ h => (by cases h))
    · intro k hk
      have : [constKind cs] = [k] := hk
      cases this; exact hlen
    · rintro (h | ⟨_, _, h⟩) <;> cases h
    · exact fun v => ⟨fun h => (by cases h), fun h => (by cases h)⟩
  have hkc : kinds K (.node (n + 1) (.constant cs) cs.length []) = [constKind cs] := by rw [kinds_node]; rfl
  have horph : Orphan (ins (.node (n + 1) (.constant cs) cs.length []) P) (.node (n + 1) (.constant cs) cs.length []) :=
    orphan_new hg (fun s hs => by have := hg.le s hs; omega) (fun _ h => (by cases h))
  have hargs : ∀ a ∈ [x, .node (n + 1) (.constant cs) cs.length []],
      ins (.node (n + 1) (.constant cs) cs.length []) P a := by
    intro a ha
    rcases List.mem_cons.mp ha with rfl | ha
    · exact ins_of hx.mem
    · rw [List.mem_singleton] at ha
      subst ha
      exact ins_self
  have g2 : Grow K (ins (.node (n + 1) (.constant cs) cs.length []) P) (n + 1) (n + 2)
      (ins (.node (n + 2) .equal 1 [x, .node (n + 1) (.constant cs) cs.length []])
        (ins (.node (n + 1) (.constant cs) cs.length []) P)) := by
    refine Grow.node g1.good g1.safe ?_ ⟨k, constKind cs, ?_, hk, rfl⟩ ?_ ?_ ?_ rfl ?_
    · intro a ha
      refine ⟨hargs a ha, ?_⟩
      rcases List.mem_cons.mp ha with rfl | ha
      · exact hx.size
      · rw [List.mem_singleton] at ha
        subst ha
        refine varSize_of ?_
        show cs.length = 1 ∨ cs.length = 4
        rw [hlen]
        cases constKind cs with
        | nat B => exact .inl rfl
        | ext => exact .inr rfl
    · rw [List.map_cons, List.map_singleton, hx.kind, hkc]
    · intro k hk
      have : [Kind.nat 2] = [k] := hk
      cases this; rfl
    · rintro (h | ⟨_, _, h⟩) <;> cases h
    · exact fun v => ⟨fun h => (by cases h), fun h => (by cases h)⟩
    · intro a ha _
      rcases List.mem_cons.mp ha with rfl | ha
      · exact g1.safe.free hx.opc
      · rw [List.mem_singleton] at ha
        subst ha
        exact horph.free g1.good rfl
  refine ⟨_, g1.trans g2, ?_, ins_self, rfl, ?_, ?_⟩
  · intro u v hu hb ho
    refine Orphan.ins g1.good (ho.ins hg hu (fun _ h => (by cases h)) (by simp)) (ins_of hu) hargs ?_
    intro hmem
    rcases List.mem_cons.mp hmem with rfl | hmem
    · exact hx.not_const _ hb.opc
    · rw [List.mem_singleton] at hmem
      have := hg.le u hu
      rw [hmem] at this
      exact Nat.lt_irrefl _ this
  · show kinds K (.node (n + 2) .equal 1 [x, .node (n + 1) (.constant cs) cs.length []]) = _
    rw [kinds_node]; rfl
  · show eval env (.node (n + 2) .equal 1 [x, .node (n + 1) (.constant cs) cs.length []]) = _
    have he : eval env (.node (n + 1) (.constant cs) cs.length []) = some [w] := by
      rw [eval, evalArgs, Option.bind_some]
      show (constVal cs).map ([·]) = _
      rw [hc]; rfl
    rw [eval, evalArgs_two, he]
    cases eval env x <;> rfl

/-- `equal_for_f` and `equal_for_u32_vec`. -/
theorem equalC_inv (hg : Good K n P) (hs : MultiSafe P) {x : Expr} {k : Kind} {v w : Val} {cs : List Nat}
    (hx : IsValue K env P x k v) (hc : constVal cs = some w)
    (hk : k = .ext ∧ constKind cs = .ext ∨ k.IsNum ∧ (constKind cs).IsNum) (hv : v.Has k) :
    ∃ P', Grow K P n (Dsl.equalC x cs n).2 P' ∧ Keeps P P' ∧ P' (Dsl.equalC x cs n).1 ∧
      (Dsl.equalC x cs n).1.opc = .equal ∧ IsCheck K env (Dsl.equalC x cs n).1 (cmpVal v w) := by
  have hw := constVal_has hc
  obtain ⟨P', h1, h2, h3, h4, h5, h6⟩ := equalC_typed (env := env) hg hs hx.toIsTyped hc hk
  refine ⟨P', h1, h2, h3, h4, h5, ?_⟩
  rw [h6, hx.eval]
  show Opc.denote env .equal [[v], [w]] = _
  rcases hk with ⟨h1, h2⟩ | ⟨⟨a, h1⟩, ⟨b, h2⟩⟩
  · rw [h1] at hv
    rw [h2] at hw
    cases v with
    | nat _ => exact hv.elim
    | ext x =>
      cases w with
      | nat _ => exact hw.elim
      | ext y =>
        simp only [Opc.denote, cmpVal]
        split <;> rfl
  · rw [h1] at hv
    rw [h2] at hw
    obtain ⟨x, rfl, _⟩ := hv.nat
    obtain ⟨y, rfl, _⟩ := hw.nat
    simp only [Opc.denote, cmpVal, Option.map_some]
    by_cases h : x = y <;> simp [h]

/-- The number made of the high bits of the first sampled word. -/
def bitsOf (f : U32 → BB) (bits : Nat) (ws : List U32) : Nat := ((ws.map f).headD 0).val >>> (32 - bits)

theorem bitsOf_lt (f : U32 → BB) {bits : Nat} (hb : bits ≤ 31) (ws : List U32) : bitsOf f bits ws < 2 ^ bits := by
  unfold bitsOf
  rw [Nat.shiftRight_eq_div_pow]
  have h1 : ((ws.map f).headD 0).val < bbP := ZMod.val_lt _
  have h2 : bbP < 2 ^ 32 := by decide
  rw [Nat.div_lt_iff_lt_mul (Nat.two_pow_pos _), ← Nat.pow_add, show bits + (32 - bits) = 32 by omega]
  omega

theorem wordsVal_has (f : U32 → BB) (hf : fs = 1 ∨ fs = 4) {ws : List U32} (hl : ws.length = fs) :
    (wordsVal f ws).Has (if fs = 1 then .base else .ext) := by
  rcases hf with rfl | rfl
  · match ws, hl with
    | [a], _ =>
      rw [if_pos rfl]
      exact ⟨ZMod.val_lt _, Nat.lt_trans (ZMod.val_lt _) (by decide)⟩
  · match ws, hl with
    | [a, b, c, d], _ => trivial

/-- `sample_bits` after the sample. -/
theorem bits_inv (hf : fs = 1 ∨ fs = 4) (hg : Good K n P) (hs : MultiSafe P) {x : Expr} {ws : List U32}
    (h : IsSample fs K env P x ws) {bits : Nat} (hb : 1 ≤ bits) (hb' : bits ≤ 31) :
    ∃ P' y n', Grow K P n n' P' ∧ Keeps P P' ∧
      (let r := if x.size = 4 then Dsl.fourU32ToU32 x n else (x, n); Dsl.extractBits r.1 bits r.2) = (y, n') ∧
      IsValue K env P' y (.nat (2 ^ bits)) (.nat (bitsOf scriptWord bits ws)) := by
  -- the first coefficient
  have first : ∃ P1 y n1, Grow K P n n1 P1 ∧ Keeps P P1 ∧ (if x.size = 4 then Dsl.fourU32ToU32 x n else (x, n)) = (y, n1) ∧
      IsValue K env P1 y .base (.nat ((ws.map scriptWord).headD 0).val) ∧ y.size = 1 := by
    have hv := h.value hf
    rcases hf with rfl | rfl
    · refine ⟨P, x, n, .refl hg hs, fun _ _ _ _ ho => ho, ?_, ?_, h.size⟩
      · rw [h.size]; rfl
      · match ws, h.len with
        | [a], _ => exact hv
    · match ws, h.len, h, hv with
      | [a, b, c, d], _, h, hv =>
        rw [if_neg (by decide)] at hv
        obtain ⟨g, k, hy⟩ := value_node (env := env) (opc := .fourU32ToU32) (size := 1) (args := [x]) (k := .base)
          (v := .nat (scriptWord a).val) hg hs
          (by intro a ha; rw [List.mem_singleton] at ha; subst ha; exact ⟨_, _, hv⟩)
          ⟨by rw [List.map_singleton, hv.kind], rfl⟩ rfl rfl
          (fun v => ⟨fun h => (by cases h), fun h => (by cases h)⟩)
          (by rintro (h | ⟨_, _, h⟩) <;> cases h) rfl id
          (by
            rw [evalArgs_one, hv.eval]
            show Opc.denote env .fourU32ToU32 [[.ext _]] = _
            rw [Opc.denote]
            simp [Stark.asBase4_mk4])
        exact ⟨_, _, _, g, k, by rw [h.size]; rfl, hy, rfl⟩
  obtain ⟨P1, y, n1, g1, k1, e1, hy, hsz⟩ := first
  obtain ⟨g, k, hz⟩ := value_node (env := env) (opc := .extractHighBits bits) (size := y.size) (args := [y])
    (k := .nat (2 ^ bits)) (v := .nat (bitsOf scriptWord bits ws)) g1.good g1.safe
    (by intro a ha; rw [List.mem_singleton] at ha; subst ha; exact ⟨_, _, hy⟩)
    ⟨bbP, by rw [List.map_singleton, hy.kind], hb, hb', rfl⟩ rfl hsz
    (fun v => ⟨fun h => (by cases h), fun h => (by cases h)⟩)
    (by rintro (h | ⟨_, _, h⟩) <;> cases h) rfl id
    (by
      rw [evalArgs_one, hy.eval]
      rfl)
  refine ⟨_, _, _, g1.trans g, k1.trans g1.sub k, ?_, hz⟩
  rw [e1]
  rfl

theorem sampleBits_inv (hH : IsBlake3 hash) (hf : fs = 1 ∨ fs = 4) {c : Chal U32} {e : ChalExpr}
    (h : CInv fs K env n P c e) {bits : Nat} (hb : 1 ≤ bits) (hb' : bits ≤ 31) :
    ∃ ws c' x e' n' P', c.sample 16 (blake3Perm hash) fs = some (ws, c') ∧ e.sampleBits fs bits n = some (x, e', n') ∧
      Grow K P n n' P' ∧ CInv fs K env n' P' { c' with output := [] } e' ∧ c'.samples = c.samples ++ [ws] ∧
      ws.length = fs ∧ IsValue K env P' x (.nat (2 ^ bits)) (.nat (bitsOf scriptWord bits ws)) := by
  obtain ⟨ws, c', x, e', n', P', h1, h2, h3, h4, h5, h6⟩ := sample_inv hH hf h
  obtain ⟨P2, y, n2, g, k, e2, hy⟩ := bits_inv hf h3.good h3.safe h6 hb hb'
  refine ⟨ws, c', y, e', n2, P2, h1, ?_, h3.trans g, h4.keep g k, h5, h6.len, hy⟩
  have : e.sampleBits fs bits n = some
      ((Dsl.extractBits (if x.size = 4 then Dsl.fourU32ToU32 x n' else (x, n')).1 bits
        (if x.size = 4 then Dsl.fourU32ToU32 x n' else (x, n')).2).1, e',
      (Dsl.extractBits (if x.size = 4 then Dsl.fourU32ToU32 x n' else (x, n')).1 bits
        (if x.size = 4 then Dsl.fourU32ToU32 x n' else (x, n')).2).2) := by
    rw [ChalExpr.sampleBits, h2]; rfl
  simp only [] at e2
  rw [this, e2]

/-- `check_witness`. -/
theorem checkWitness_inv (hH : IsBlake3 hash) (hf : fs = 1 ∨ fs = 4) {c : Chal U32} {e : ChalExpr}
    (h : CInv fs K env n P c e) {bits : Nat} (hb : 1 ≤ bits) (hb' : bits ≤ 31) (w : U32) :
    ∃ c1 c2 ws c' x e' n' P', c.observe 16 (blake3Perm hash) w = some c1 ∧
      c1.observeAll 16 (blake3Perm hash) (List.replicate 7 (fromU64 0)) = some c2 ∧
      c2.sample 16 (blake3Perm hash) fs = some (ws, c') ∧ e.checkWitness fs bits w n = some (x, e', n') ∧
      Grow K P n n' P' ∧ CInv fs K env n' P' { c' with output := [] } e' ∧ c'.samples = c.samples ++ [ws] ∧
      ws.length = fs ∧ P' x ∧ x.opc = .equal ∧
      IsCheck K env x (some (decide (bitsOf scriptWord bits ws = 0))) := by
  obtain ⟨c1, e1, n1, P1, a1, a2, a3, a4, a5⟩ := observe_inv hH hf h w
  obtain ⟨c2, e2, n2, P2, b1, b2, b3, b4, b5⟩ := observeAll_inv hH hf (vs := List.replicate 7 (fromU64 0)) a4
  obtain ⟨ws, c3, x, e3, n3, P3, d1, d2, d3, d4, d5, d6, d7⟩ := sampleBits_inv hH hf b4 hb hb'
  have hlt := bitsOf_lt scriptWord hb' ws
  have h31 : 2 ^ bits ≤ 2 ^ 31 := Nat.pow_le_pow_right (by decide) hb'
  obtain ⟨P4, g1, g2, g3, g4, g5⟩ := equalC_inv d3.good d3.safe d7 (cs := [0]) (w := .nat 0)
    (by rw [constVal, if_pos (by decide)]) (.inr ⟨⟨_, rfl⟩, ⟨_, rfl⟩⟩) ⟨hlt, by omega⟩
  refine ⟨c1, c2, ws, c3, _, e3, _, P4, a1, b1, d1, ?_, ((a3.trans b3).trans d3).trans g1, d4.keep g1 g2,
    by rw [d5, b5, a5], d6, g3, g4, g5⟩
  rw [ChalExpr.checkWitness, a2]
  simp only [Option.bind_eq_bind, Option.bind_some]
  rw [b2]
  simp only [Option.bind_some]
  rw [d2]
  rfl

end TapStark
