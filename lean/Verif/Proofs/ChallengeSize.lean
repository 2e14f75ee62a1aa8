import Verif.Proofs.ScriptSize
import Verif.Spec.ScriptSize
import Verif.Proofs.Fri

/-
The hashes in the script that checks the challenges.
-/

namespace TapStark.Size

open TapStark TapStark.Stark TapStark.FS TapStark.Fri

/-! ### Nodes -/

/-- A node whose identifiers are at most `n` and not in `Q`, compiled with at least `k` hashes whatever the numbers of
visits are. -/
structure Node (n : Nat) (Q : List Nat) (k : Nat) (x : Expr) : Prop where
  le : ∀ i ∈ x.ids, i ≤ n
  out : ∀ i ∈ x.ids, i ∉ Q
  work : ∀ N, k ≤ x.work N

theorem Node.mono {n n' k k' : Nat} {Q P : List Nat} {x : Expr} (h : Node n Q k x) (hn : n ≤ n') (hk : k' ≤ k)
    (hP : ∀ p ∈ P, n < p) : Node n' (Q ++ P) k' x where
  le i hi := (h.le i hi).trans hn
  out i hi := by
    rw [List.mem_append, not_or]
    exact ⟨h.out i hi, fun hp => by have := h.le i hi; have := hP i hp; omega⟩
  work N := hk.trans (h.work N)

theorem Node.up {n n' k k' : Nat} {Q : List Nat} {x : Expr} (h : Node n Q k x) (hn : n ≤ n') (hk : k' ≤ k) :
    Node n' Q k' x := by
  have := h.mono (P := []) hn hk (by simp)
  rwa [List.append_nil] at this

theorem mem_idsList {i : Nat} : ∀ {l : List Expr}, i ∈ idsList l ↔ ∃ x ∈ l, i ∈ x.ids
  | [] => by simp [idsList]
  | x :: l => by simp [idsList, mem_idsList (l := l)]

theorem idsList_append : ∀ l l' : List Expr, idsList (l ++ l') = idsList l ++ idsList l'
  | [], _ => rfl
  | x :: l, l' => by simp [idsList, idsList_append l l']

theorem workList_append (N : Nat → Nat) : ∀ l l' : List Expr, workList N (l ++ l') = workList N l + workList N l'
  | [], _ => by simp [workList]
  | x :: l, l' => by simp [workList, workList_append N l l']; omega

theorem work_le_workList (N : Nat → Nat) : ∀ {l : List Expr} {x : Expr}, x ∈ l → x.work N ≤ workList N l
  | y :: l, x, h => by
    rw [workList]
    rcases List.mem_cons.1 h with rfl | h
    · omega
    · have := work_le_workList N h; omega

/-- A fresh node without hashes below it. -/
theorem Node.mk0 {n : Nat} {Q : List Nat} {opc : Opc} {size : Nat} {args : List Expr} (hQ : ∀ q ∈ Q, q ≤ n)
    (h : ∀ a ∈ args, Node n Q 0 a) : Node (n + 1) Q 0 (.node (n + 1) opc size args) where
  le i hi := by
    rw [Expr.ids, List.mem_cons, mem_idsList] at hi
    rcases hi with rfl | ⟨a, ha, hi⟩
    · exact le_refl _
    · exact ((h a ha).le i hi).trans (by omega)
  out i hi := by
    rw [Expr.ids, List.mem_cons, mem_idsList] at hi
    rcases hi with rfl | ⟨a, ha, hi⟩
    · exact fun hq => by have := hQ _ hq; omega
    · exact (h a ha).out i hi
  work N := Nat.zero_le _

/-- A node without hashes counted below it. -/
theorem Node.mkAt {n i : Nat} {Q : List Nat} {opc : Opc} {size : Nat} {args : List Expr} (hi : i ≤ n) (hQ : ∀ q ∈ Q, q < i)
    (h : ∀ a ∈ args, Node n Q 0 a) : Node n Q 0 (.node i opc size args) where
  le j hj := by
    rw [Expr.ids, List.mem_cons, mem_idsList] at hj
    rcases hj with rfl | ⟨a, ha, hj⟩
    · exact hi
    · exact (h a ha).le j hj
  out j hj := by
    rw [Expr.ids, List.mem_cons, mem_idsList] at hj
    rcases hj with rfl | ⟨a, ha, hj⟩
    · exact fun hq => by have := hQ _ hq; omega
    · exact (h a ha).out j hj
  work N := Nat.zero_le _

/-- A fresh node with several outputs. -/
theorem Node.mkMulti {n k : Nat} {Q : List Nat} {opc : Opc} {size : Nat} {args : List Expr} (hQ : ∀ q ∈ Q, q ≤ n)
    (ho : opc.outNum ≠ some 1) (h : ∀ a ∈ args, Node n Q 0 a) {a : Expr} (ha : a ∈ args) (hk : Node n Q k a) :
    Node (n + 1) Q (opc.hash + k) (.node (n + 1) opc size args) where
  le := (Node.mk0 hQ h).le
  out := (Node.mk0 (opc := opc) (size := size) hQ h).out
  work N := by
    rw [Expr.work, if_neg fun h => ho h.1]
    have := work_le_workList N ha
    have := hk.work N
    omega

/-! ### States of the challenger -/

/-- A state whose chain of hashes has length at least `D`. -/
structure CS (n : Nat) (Q : List Nat) (D : Nat) (c : ChalExpr) : Prop where
  bound : ∀ q ∈ Q, q ≤ n
  sponge : ∃ zs s, c.sponge = zs ++ [s] ∧ zs.length = 32 ∧ (∀ z ∈ zs, Node n Q 0 z) ∧ Node n Q D s
  input : ∀ x ∈ c.input, Node n Q 0 x
  output : c.output = [] ∨ ∃ t, c.output = [t] ∧ Node n Q D t

theorem CS.mono {n n' D D' : Nat} {Q P : List Nat} {c : ChalExpr} (h : CS n Q D c) (hn : n ≤ n') (hD : D' ≤ D)
    (hP : ∀ p ∈ P, n < p) (hP' : ∀ p ∈ P, p ≤ n') : CS n' (Q ++ P) D' c where
  bound q hq := by
    rcases List.mem_append.1 hq with hq | hq
    · exact (h.bound q hq).trans hn
    · exact hP' q hq
  sponge := by
    obtain ⟨zs, s, h1, h2, h3, h4⟩ := h.sponge
    exact ⟨zs, s, h1, h2, fun z hz => (h3 z hz).mono hn (le_refl _) hP, h4.mono hn hD hP⟩
  input x hx := (h.input x hx).mono hn (le_refl _) hP
  output := by
    rcases h.output with h | ⟨t, h1, h2⟩
    · exact .inl h
    · exact .inr ⟨t, h1, h2.mono hn hD hP⟩

theorem CS.up {n n' D D' : Nat} {Q : List Nat} {c : ChalExpr} (h : CS n Q D c) (hn : n ≤ n') (hD : D' ≤ D) :
    CS n' Q D' c := by
  have := h.mono (P := []) hn hD (by simp) (by simp)
  rwa [List.append_nil] at this

theorem consts_node {Q : List Nat} : ∀ (vs : List Nat) {n n' : Nat} {es : List Expr}, (∀ q ∈ Q, q ≤ n) →
    ChalExpr.consts vs n = (es, n') → n ≤ n' ∧ es.length = vs.length ∧ ∀ e ∈ es, Node n' Q 0 e
  | [], n, n', es, _, h => by cases h; simp
  | v :: vs, n, n', es, hQ, h => by
    rw [ChalExpr.consts] at h
    simp only [Dsl.constant, Dsl.mk] at h
    obtain ⟨h1, h2, h3⟩ := consts_node vs (n := n + 1) (fun q hq => (hQ q hq).trans (by omega)) rfl
    cases h
    refine ⟨by omega, by simp [h2], ?_⟩
    intro e he
    rcases List.mem_cons.1 he with rfl | he
    · exact (Node.mk0 hQ (by simp)).up h1 (le_refl _)
    · exact h3 e he

theorem new_cs (n : Nat) : CS (ChalExpr.new n).2 [] 0 (ChalExpr.new n).1 := by
  cases h : ChalExpr.consts (List.replicate 32 0) n with
  | mk zs n1 =>
    obtain ⟨h1, h2, h3⟩ := consts_node (Q := []) _ (by simp) h
    have e : ChalExpr.new n = (⟨zs ++ [.node (n1 + 1) (.table (List.replicate 32 [0])) 1 []], [], []⟩, n1 + 1) := by
      unfold ChalExpr.new
      rw [h]; rfl
    rw [e]
    exact ⟨by simp, ⟨zs, _, rfl, by simpa using h2, fun z hz => (h3 z hz).up (by simp) (le_refl _),
      Node.mk0 (by simp) (by simp)⟩, by simp, .inl rfl⟩

/-- A hash: the chain grows by one, and its result is available. -/
theorem duplexing_cs {fs n n' D : Nat} {Q : List Nat} {c c' : ChalExpr} (h : CS n Q D c)
    (hd : c.duplexing fs n = some (c', n')) (ho : c.output = []) :
    n ≤ n' ∧ CS n' Q (D + 1) c' ∧ c'.input = [] ∧ ∃ t, c'.output = [t] := by
  unfold ChalExpr.duplexing at hd
  split at hd
  · rename_i hl
    obtain ⟨zs, s, h1, h2, h3, h4⟩ := h.sponge
    simp only [Dsl.blake3, Dsl.toSample, Dsl.mk] at hd
    cases hc : ChalExpr.consts (List.replicate 32 0) (n + 1) with
    | mk ws n1 =>
      rw [hc] at hd
      have hQ : ∀ q ∈ Q, q ≤ n + 1 := fun q hq => (h.bound q hq).trans (by omega)
      obtain ⟨g1, g2, g3⟩ := consts_node (Q := Q) _ hQ hc
      simp only [Option.some.injEq, Prod.mk.injEq] at hd
      obtain ⟨rfl, rfl⟩ := hd
      have hs : s ∈ (c.input ++ c.sponge.drop c.input.length).reverse := by
        rw [h1, List.drop_append_of_le_length (by omega)]
        simp
      have hall : ∀ a ∈ (c.input ++ c.sponge.drop c.input.length).reverse, Node n Q 0 a := by
        intro a ha
        rw [List.mem_reverse, List.mem_append] at ha
        rcases ha with ha | ha
        · exact h.input a ha
        · have := List.mem_of_mem_drop ha
          rw [h1, List.mem_append, List.mem_singleton] at this
          rcases this with hz | rfl
          · exact h3 a hz
          · exact h4.up (le_refl _) (by omega)
      have hb : Node (n + 1) Q (D + 1) (.node (n + 1) .blake3 fs (c.input ++ c.sponge.drop c.input.length).reverse) := by
        have := Node.mkMulti (opc := .blake3) (size := fs) h.bound (by decide) hall hs h4
        exact this.up (le_refl _) (by rw [Opc.hash]; omega)
      have hQ1 : ∀ q ∈ Q, q ≤ n1 := fun q hq => (hQ q hq).trans g1
      have hb1 := hb.up g1 (le_refl _)
      have ht := Node.mkMulti (opc := .toSample) (size := fs) (args := [_]) hQ1 (by decide)
        (fun a ha => by rw [List.mem_singleton.1 ha]; exact hb1.up (le_refl _) (Nat.zero_le _)) (List.mem_singleton.2 rfl) hb1
      rw [show Opc.toSample.hash = 0 from rfl, Nat.zero_add] at ht
      refine ⟨by omega, ⟨fun q hq => (hQ1 q hq).trans (by omega), ?_, by simp, .inr ⟨_, by rw [ho]; rfl, ht⟩⟩, rfl, _, by rw [ho]; rfl⟩
      exact ⟨ws, _, rfl, by simpa using g2, fun z hz => (g3 z hz).up (by omega) (le_refl _), hb1.up (by omega) (le_refl _)⟩
  · cases hd

/-- Observing a word: either it waits, or a hash follows. -/
theorem observe_cs {fs n n' D : Nat} {Q : List Nat} {c c' : ChalExpr} {v : U32} (h : CS n Q D c)
    (hd : c.observe fs v n = some (c', n')) : n ≤ n' ∧
      (c.input.length ≠ 28 → CS n' Q D c' ∧ c'.input.length = c.input.length + 4 ∧ c'.output = []) ∧
      (c.input.length = 28 → CS n' Q (D + 1) c' ∧ c'.input = [] ∧ ∃ t, c'.output = [t]) := by
  unfold ChalExpr.observe at hd
  cases hc : ChalExpr.consts (v.toList.map UInt8.toNat) n with
  | mk es n1 =>
    rw [hc] at hd
    obtain ⟨g1, g2, g3⟩ := consts_node (Q := Q) _ h.bound hc
    have hl : es.length = 4 := by rw [g2]; simp
    have h1 : CS n1 Q D ⟨c.sponge, c.input ++ es, []⟩ := by
      have := h.up g1 (le_refl D)
      refine ⟨this.bound, this.sponge, ?_, .inl rfl⟩
      intro x hx
      rcases List.mem_append.1 hx with hx | hx
      · exact this.input x hx
      · exact g3 x hx
    simp only [List.length_append, hl] at hd
    split at hd
    · rename_i h32
      obtain ⟨k1, k2, k3, k4⟩ := duplexing_cs h1 hd rfl
      exact ⟨by omega, fun hn => absurd (by omega) hn, fun _ => ⟨k2, k3, k4⟩⟩
    · rename_i h32
      cases hd
      exact ⟨g1, fun _ => ⟨h1, by simp [hl], rfl⟩, fun hn => absurd (by omega) h32⟩

/-- Observing some words that do not fill the block. -/
theorem observeAll_wait {fs : Nat} {Q : List Nat} {D : Nat} : ∀ (vs : List U32) {n n' : Nat} {c c' : ChalExpr}, CS n Q D c →
    c.input.length + 4 * vs.length < 32 → c.observeAll fs vs n = some (c', n') →
    n ≤ n' ∧ CS n' Q D c' ∧ c'.input.length = c.input.length + 4 * vs.length
  | [], n, n', c, c', h, _, hd => by cases hd; exact ⟨le_refl _, h, by simp⟩
  | v :: vs, n, n', c, c', h, hl, hd => by
    rw [List.length_cons] at hl ⊢
    rw [ChalExpr.observeAll, Option.bind_eq_bind, Option.bind_eq_some_iff] at hd
    obtain ⟨⟨c1, n1⟩, h1, h2⟩ := hd
    obtain ⟨g1, g2, -⟩ := observe_cs h h1
    obtain ⟨g3, g4, -⟩ := g2 (by omega)
    obtain ⟨k1, k2, k3⟩ := observeAll_wait vs g3 (by omega) h2
    exact ⟨by omega, k2, by omega⟩

theorem observeAll_append {fs : Nat} : ∀ (vs ws : List U32) (c : ChalExpr) (n : Nat),
    c.observeAll fs (vs ++ ws) n = (c.observeAll fs vs n).bind fun r => r.1.observeAll fs ws r.2
  | [], _, _, _ => rfl
  | v :: vs, ws, c, n => by
    rw [List.cons_append, ChalExpr.observeAll, ChalExpr.observeAll]
    simp only [Option.bind_eq_bind, Option.bind_assoc]
    congr 1
    funext r
    exact observeAll_append vs ws r.1 r.2

/-- Observing a block of eight words. -/
theorem observeAll_block {fs : Nat} {Q : List Nat} {D : Nat} {vs : List U32} {n n' : Nat} {c c' : ChalExpr}
    (hv : vs.length = 8) (h : CS n Q D c) (hi : c.input = []) (hd : c.observeAll fs vs n = some (c', n')) :
    n ≤ n' ∧ CS n' Q (D + 1) c' ∧ c'.input = [] ∧ ∃ t, c'.output = [t] := by
  obtain ⟨us, v, rfl⟩ : ∃ us v, vs = us ++ [v] :=
    ⟨_, _, (List.dropLast_concat_getLast (by rintro rfl; simp at hv)).symm⟩
  have hu : us.length = 7 := by simpa using hv
  rw [observeAll_append, Option.bind_eq_some_iff] at hd
  obtain ⟨⟨c1, n1⟩, h1, h2⟩ := hd
  obtain ⟨k1, k2, k3⟩ := observeAll_wait us h (by rw [hi, hu]; decide) h1
  simp only [ChalExpr.observeAll, Option.bind_eq_bind, Option.bind_eq_some_iff] at h2
  obtain ⟨⟨c2, n2⟩, h2, h3⟩ := h2
  cases h3
  obtain ⟨g1, -, g2⟩ := observe_cs k2 h2
  obtain ⟨g3, g4, g5⟩ := g2 (by rw [k3, hi, hu]; rfl)
  exact ⟨by omega, g3, g4, g5⟩

/-- Observing a commitment: one hash for every root. -/
theorem observeRoots_cs {Q : List Nat} : ∀ (r : Roots) {D n n' : Nat} {c c' : ChalExpr}, CS n Q D c → c.input = [] →
    observeRoots c r n = some (c', n') →
    n ≤ n' ∧ CS n' Q (D + r.length) c' ∧ c'.input = [] ∧ (r ≠ [] → ∃ t, c'.output = [t])
  | [], D, n, n', c, c', h, hi, hd => by cases hd; exact ⟨le_refl _, h, hi, by simp⟩
  | v :: r, D, n, n', c, c', h, hi, hd => by
    unfold observeRoots at hd
    rw [List.flatMap_cons, observeAll_append, Option.bind_eq_some_iff] at hd
    obtain ⟨⟨c1, n1⟩, h1, h2⟩ := hd
    obtain ⟨k1, k2, k3, k4⟩ := observeAll_block (by simp) h hi h1
    obtain ⟨g1, g2, g3, g4⟩ := observeRoots_cs r k2 k3 h2
    refine ⟨by omega, g2.up (le_refl _) (by rw [List.length_cons]; omega), g3, fun _ => ?_⟩
    by_cases hr : r = []
    · subst hr
      cases h2
      exact k4
    · exact g4 hr

/-- Sampling an extension field element: the identifiers of the new node and the length of its chain. -/
theorem sample_cs {n n' D : Nat} {Q : List Nat} {c c' : ChalExpr} {x : Expr} (h : CS n Q D c) (hi : c.input = [])
    (hd : c.sample 4 n = some (x, c', n')) : ∃ a t, n ≤ a ∧ n' = a + 1 ∧ x = .node (a + 1) .sampleExt 4 [t] ∧
      (∃ D', D ≤ D' ∧ (c.output = [] → D' = D + 1) ∧ Node a Q D' t ∧ CS a Q D' c') ∧ c'.input = [] ∧ c'.output = [] := by
  unfold ChalExpr.sample at hd
  rw [if_pos (.inr rfl)] at hd
  obtain ⟨⟨c1, n1⟩, h1, h2⟩ : ∃ r : ChalExpr × Nat,
      (if (!c.input.isEmpty || c.output.isEmpty) = true then ChalExpr.duplexing 4 c n else some (c, n)) = some r ∧
        (r.1.output.getLast?.bind fun t => some ((if 4 = 1 then Dsl.sampleBase t r.2 else Dsl.sampleExt t r.2).1,
          ({ r.1 with output := r.1.output.dropLast } : ChalExpr),
          (if 4 = 1 then Dsl.sampleBase t r.2 else Dsl.sampleExt t r.2).2)) = some (x, c', n') := by
    by_cases hif : (!c.input.isEmpty || c.output.isEmpty) = true
    · simp only [if_pos hif] at hd ⊢
      exact Option.bind_eq_some_iff.1 hd
    · simp only [if_neg hif] at hd ⊢
      exact ⟨(c, n), rfl, hd⟩
  rw [Option.bind_eq_some_iff] at h2
  obtain ⟨t, h2, h3⟩ := h2
  simp only [if_neg (show ¬ (4 : Nat) = 1 by decide), Dsl.sampleExt, Dsl.mk] at h3
  simp only [Option.some.injEq, Prod.mk.injEq] at h3
  obtain ⟨rfl, rfl, rfl⟩ := h3
  by_cases ho : c.output = []
  · rw [ho, hi] at h1
    obtain ⟨k1, k2, k3, t', k4⟩ := duplexing_cs h h1 ho
    simp only at h2
    rw [k4] at h2 ⊢
    obtain rfl : t' = t := by simpa using h2
    rcases k2.output with e | ⟨t'', e, hn⟩
    · rw [k4] at e; cases e
    · rw [k4] at e
      cases e
      exact ⟨n1, _, k1, rfl, rfl, ⟨D + 1, by omega, fun _ => rfl, hn, k2.bound, k2.sponge, k2.input, .inl rfl⟩, k3, rfl⟩
  · have : (!c.input.isEmpty || c.output.isEmpty) = false := by
      rw [hi]; cases hc : c.output with
      | nil => exact absurd hc ho
      | cons _ _ => rfl
    rw [this] at h1
    cases h1
    rcases h.output with e | ⟨t'', e, hn⟩
    · exact absurd e ho
    · simp only at h2
      rw [e] at h2 ⊢
      obtain rfl : t'' = t := by simpa using h2
      exact ⟨n, _, le_refl _, rfl, rfl, ⟨D, le_refl _, fun h => absurd h (by simp), hn, h.bound, h.sponge, h.input, .inl rfl⟩,
        hi, rfl⟩

/-! ### The checks -/

/-- Checks compiled together with at least `S` hashes, if the nodes in `Q` are visited once. -/
structure Tot (n : Nat) (Q : List Nat) (S : Nat) (l : List Expr) : Prop where
  le : ∀ i ∈ idsList l, i ≤ n
  one : ∀ q ∈ Q, (idsList l).count q ≤ 1
  work : ∀ N : Nat → Nat, (∀ q ∈ Q, N q ≤ 1) → S ≤ workList N l

theorem Tot.up {n n' S S' : Nat} {Q : List Nat} {l : List Expr} (h : Tot n Q S l) (hn : n ≤ n') (hS : S' ≤ S) :
    Tot n' Q S' l := ⟨fun i hi => (h.le i hi).trans hn, h.one, fun N hN => hS.trans (h.work N hN)⟩

/-- A further check with new nodes `P` visited once. -/
theorem Tot.snoc {n n' S K : Nat} {Q P : List Nat} {l : List Expr} {x : Expr} (h : Tot n Q S l)
    (hn : n ≤ n') (hP : ∀ p ∈ P, n < p) (hx : ∀ i ∈ x.ids, i ≤ n') (hxQ : ∀ i ∈ x.ids, i ∉ Q)
    (hc : ∀ p ∈ P, x.ids.count p ≤ 1) (hw : ∀ N : Nat → Nat, (∀ p ∈ P, N p ≤ 1) → K ≤ x.work N) :
    Tot n' (Q ++ P) (S + K) (l ++ [x]) where
  le i hi := by
    rw [idsList_append, List.mem_append] at hi
    rcases hi with hi | hi
    · exact (h.le i hi).trans hn
    · simp only [idsList, List.append_nil] at hi
      exact hx i hi
  one q hq := by
    rw [idsList_append, List.count_append]
    simp only [idsList, List.append_nil]
    rcases List.mem_append.1 hq with hq | hq
    · have := h.one q hq
      rw [List.count_eq_zero.2 fun hm => hxQ q hm hq]
      omega
    · have := hc q hq
      rw [List.count_eq_zero.2 fun hm => by have := h.le q hm; have := hP q hq; omega]
      omega
  work N hN := by
    rw [workList_append]
    have h1 := h.work N fun q hq => hN q (List.mem_append.2 (.inl hq))
    have h2 := hw N fun q hq => hN q (List.mem_append.2 (.inr hq))
    simp only [workList]
    omega

/-- A further check that is not counted. -/
theorem Tot.snoc0 {n n' S : Nat} {Q : List Nat} {l : List Expr} {x : Expr} (h : Tot n Q S l)
    (hn : n ≤ n') (hx : Node n' Q 0 x) : Tot n' Q S (l ++ [x]) := by
  have := h.snoc (P := []) (K := 0) hn (by simp) hx.le hx.out (by simp) (by simp)
  simpa using this

/-- Checking a sample: the new nodes visited once are the sample and the comparison. -/
theorem sampleCheck_tot {n n' D S : Nat} {Q : List Nat} {c c' : ChalExpr} {l : List Expr} {value : BB4} {x check : Expr}
    (h : CS n Q D c) (hi : c.input = []) (ht : Tot n Q S l)
    (hd : sampleCheck c value n = some (x, check, c', n')) :
    ∃ Q', n ≤ n' ∧ c'.input = [] ∧ c'.output = [] ∧ ∃ D', D ≤ D' ∧ (c.output = [] → D' = D + 1) ∧
      CS n' Q' D' c' ∧ Tot n' Q' (S + D') (l ++ [check]) := by
  unfold sampleCheck at hd
  rw [Option.bind_eq_bind, Option.bind_eq_some_iff] at hd
  obtain ⟨⟨y, c1, n1⟩, h1, h2⟩ := hd
  obtain ⟨a, t, k1, rfl, rfl, ⟨D', k2, k3, k4, k5⟩, k6, k7⟩ := sample_cs h hi h1
  simp only [Dsl.equalC, Dsl.constant, Dsl.equal, Dsl.mk] at h2
  cases h2
  refine ⟨Q ++ [a + 1, a + 1 + 1 + 1], by omega, k6, k7, D', k2, k3,
    k5.mono (by omega) (le_refl _) (by simp; omega) (by simp), ht.snoc (by omega) (by simp; omega) ?_ ?_ ?_ ?_⟩
  all_goals try simp only [Expr.ids, idsList, List.append_nil, List.cons_append]
  · intro i hi
    simp only [List.mem_cons, List.mem_append, List.not_mem_nil, or_false] at hi
    rcases hi with rfl | rfl | hi | rfl
    · omega
    · omega
    · have := k4.le i hi; omega
    · omega
  · intro i hi
    have hb : ∀ q ∈ Q, q ≤ a := fun q hq => (h.bound q hq).trans k1
    simp only [List.mem_cons, List.mem_append, List.not_mem_nil, or_false] at hi
    rcases hi with rfl | rfl | hi | rfl
    · exact fun hq => by have := hb _ hq; omega
    · exact fun hq => by have := hb _ hq; omega
    · exact k4.out i hi
    · exact fun hq => by have := hb _ hq; omega
  · intro p hp
    have e : ∀ j, a < j → t.ids.count j = 0 := fun j hj =>
      List.count_eq_zero.2 fun hm => by have := k4.le j hm; omega
    simp only [List.mem_cons, List.not_mem_nil, or_false] at hp
    rcases hp with rfl | rfl
    · simp [List.count_cons, List.count_append, e (a + 1) (by omega)]
    · simp [List.count_cons, List.count_append, e (a + 1 + 1 + 1) (by omega)]
  · intro N hN
    have e1 := hN (a + 1) (by simp)
    have e2 := hN (a + 1 + 1 + 1) (by simp)
    have e3 := k4.work N
    rw [Expr.work, if_neg (by omega), workList, Expr.work, if_neg (by omega), workList]
    omega

/-- Checking sampled bits: the new nodes visited once are the sample, its first word, the bits and the comparison. -/
theorem sampleBits_tot {n n' D S bits : Nat} {Q : List Nat} {c c' : ChalExpr} {l : List Expr} {value : List Nat} {x : Expr}
    (h : CS n Q D c) (hi : c.input = []) (ht : Tot n Q S l) (hd : c.sampleBits 4 bits n = some (x, c', n')) :
    ∃ Q', n ≤ (Dsl.equalC x value n').2 ∧ c'.input = [] ∧ c'.output = [] ∧ ∃ D', D ≤ D' ∧ (c.output = [] → D' = D + 1) ∧
      CS (Dsl.equalC x value n').2 Q' D' c' ∧
      Tot (Dsl.equalC x value n').2 Q' (S + D') (l ++ [(Dsl.equalC x value n').1]) := by
  unfold ChalExpr.sampleBits at hd
  rw [Option.bind_eq_bind, Option.bind_eq_some_iff] at hd
  obtain ⟨⟨y, c1, n1⟩, h1, h2⟩ := hd
  obtain ⟨a, t, k1, rfl, rfl, ⟨D', k2, k3, k4, k5⟩, k6, k7⟩ := sample_cs h hi h1
  simp only [Expr.size, if_true, Dsl.fourU32ToU32, Dsl.extractBits, Dsl.mk] at h2
  cases h2
  simp only [Dsl.equalC, Dsl.constant, Dsl.equal, Dsl.mk]
  refine ⟨Q ++ [a + 1, a + 1 + 1, a + 1 + 1 + 1, a + 1 + 1 + 1 + 1 + 1], by omega, k6, k7, D', k2, k3,
    k5.mono (by omega) (le_refl _) (by simp; omega) (by simp), ht.snoc (by omega) (by simp; omega) ?_ ?_ ?_ ?_⟩
  all_goals try simp only [Expr.ids, idsList, List.append_nil, List.cons_append]
  · intro i hi
    simp only [List.mem_cons, List.mem_append, List.not_mem_nil, or_false] at hi
    rcases hi with rfl | rfl | rfl | rfl | hi | rfl
    · omega
    · omega
    · omega
    · omega
    · have := k4.le i hi; omega
    · omega
  · intro i hi
    have hb : ∀ q ∈ Q, q ≤ a := fun q hq => (h.bound q hq).trans k1
    simp only [List.mem_cons, List.mem_append, List.not_mem_nil, or_false] at hi
    rcases hi with rfl | rfl | rfl | rfl | hi | rfl
    · exact fun hq => by have := hb _ hq; omega
    · exact fun hq => by have := hb _ hq; omega
    · exact fun hq => by have := hb _ hq; omega
    · exact fun hq => by have := hb _ hq; omega
    · exact k4.out i hi
    · exact fun hq => by have := hb _ hq; omega
  · intro p hp
    have e : ∀ j, a < j → t.ids.count j = 0 := fun j hj =>
      List.count_eq_zero.2 fun hm => by have := k4.le j hm; omega
    simp only [List.mem_cons, List.not_mem_nil, or_false] at hp
    rcases hp with rfl | rfl | rfl | rfl
    · simp [List.count_cons, List.count_append, e (a + 1) (by omega)]
    · simp [List.count_cons, List.count_append, e (a + 1 + 1) (by omega)]
    · simp [List.count_cons, List.count_append, e (a + 1 + 1 + 1) (by omega)]
    · simp [List.count_cons, List.count_append, e (a + 1 + 1 + 1 + 1 + 1) (by omega)]
  · intro N hN
    have e1 := hN (a + 1) (by simp)
    have e2 := hN (a + 1 + 1) (by simp)
    have e3 := hN (a + 1 + 1 + 1) (by simp)
    have e4 := hN (a + 1 + 1 + 1 + 1 + 1) (by simp)
    have e5 := k4.work N
    simp only [Expr.work, workList, Nat.not_lt.2 e1, Nat.not_lt.2 e2, Nat.not_lt.2 e3, Nat.not_lt.2 e4, and_false, if_false]
    omega

/-- Sum of `f 0`, ..., `f (k - 1)`. -/
def upto (f : Nat → Nat) : Nat → Nat
  | 0 => 0
  | k + 1 => f 0 + upto (fun i => f (i + 1)) k

theorem upto_le {f g : Nat → Nat} : ∀ k, (∀ i, f i ≤ g i) → upto f k ≤ upto g k
  | 0, _ => le_refl _
  | k + 1, h => by
    have := upto_le k fun i => h (i + 1)
    have := h 0
    simp only [upto]; omega

/-- The folding challenges. -/
theorem betasExpr_tot {perm : List U32 → List U32} {w : Nat} : ∀ (comms : List Roots) {n n' D S : Nat}
    {Q : List Nat} {c c' : Chal U32} {e e' : ChalExpr} {l checks : List Expr} {betas : List BB4},
    (∀ r ∈ comms, w ≤ r.length) → CS n Q D e → e.input = [] → e.output = [] → Tot n Q S l →
    betasExpr perm comms c e n = some (betas, checks, c', e', n') →
    ∃ Q', n ≤ n' ∧ e'.input = [] ∧ e'.output = [] ∧ CS n' Q' (D + comms.length * w) e' ∧
      Tot n' Q' (S + upto (fun i => D + (i + 1) * w) comms.length) (l ++ checks)
  | [], n, n', D, S, Q, c, c', e, e', l, checks, betas, _, h, hi, ho, ht, hd => by
    cases hd
    refine ⟨Q, le_refl _, hi, ho, h.up (le_refl _) (by simp), ?_⟩
    rw [List.append_nil]
    exact ht.up (le_refl _) (by simp [upto])
  | r :: comms, n, n', D, S, Q, c, c', e, e', l, checks, betas, hr, h, hi, ho, ht, hd => by
    simp only [betasExpr, Option.bind_eq_bind, Option.bind_eq_some_iff] at hd
    obtain ⟨c1, -, ⟨beta, c2⟩, -, ⟨e1, n1⟩, h1, ⟨x, check, e2, n2⟩, h2, ⟨bs, cs, c3, e3, n3⟩, h3, h4⟩ := hd
    cases h4
    have hl := hr r List.mem_cons_self
    obtain ⟨k1, k2, k3, k4⟩ := observeRoots_cs r h hi h1
    obtain ⟨Q1, g1, g2, g3, D', g4, g5, g6, g7⟩ := sampleCheck_tot k2 k3 (ht.up k1 (le_refl _)) h2
    obtain ⟨Q2, m1, m2, m3, m4, m5⟩ := betasExpr_tot comms (D := D + w) (fun r' h' => hr r' (List.mem_cons_of_mem _ h'))
      (g6.up (le_refl _) (by omega)) g2 g3 g7 h3
    refine ⟨Q2, le_trans (le_trans k1 g1) m1, m2, m3, m4.up (le_refl _) (by rw [List.length_cons, Nat.succ_mul]; omega), ?_⟩
    rw [List.append_assoc, List.singleton_append] at m5
    refine m5.up (le_refl _) ?_
    rw [List.length_cons, upto]
    have : upto (fun i => D + (i + 1 + 1) * w) comms.length ≤ upto (fun i => D + w + (i + 1) * w) comms.length :=
      upto_le _ fun i => by have := Nat.succ_mul (i + 1) w; simp only [Nat.succ_eq_add_one] at this; omega
    simp only [Nat.zero_add, Nat.one_mul]
    omega

/-- The proof of work. -/
theorem checkWitness_tot {n n' D S bits : Nat} {Q : List Nat} {e e' : ChalExpr} {l : List Expr} {v : U32} {check : Expr}
    (h : CS n Q D e) (hi : e.input = []) (ht : Tot n Q S l) (hd : e.checkWitness 4 bits v n = some (check, e', n')) :
    ∃ Q', n ≤ n' ∧ e'.input = [] ∧ e'.output = [] ∧ CS n' Q' (D + 1) e' ∧ Tot n' Q' (S + (D + 1)) (l ++ [check]) := by
  simp only [ChalExpr.checkWitness, Option.bind_eq_bind, Option.bind_eq_some_iff] at hd
  obtain ⟨⟨e1, n1⟩, h1, ⟨e2, n2⟩, h2, ⟨x, e3, n3⟩, h3, h4⟩ := hd
  have hb : e.observeAll 4 (v :: List.replicate 7 (fromU64 0)) n = some (e2, n2) := by
    rw [ChalExpr.observeAll, h1]; exact h2
  obtain ⟨k1, k2, k3, k4⟩ := observeAll_block (by simp) h hi hb
  obtain ⟨Q1, g1, g2, g3, D', g4, g5, g6, g7⟩ := sampleBits_tot (value := [0]) k2 k3 (ht.up k1 (le_refl _)) h3
  cases h4
  exact ⟨Q1, le_trans k1 g1, g2, g3, g6.up (le_refl _) g4, g7.up (le_refl _) (by omega)⟩

/-- The query indices. -/
theorem indicesExpr_tot {perm : List U32 → List U32} {bits : Nat} : ∀ (k : Nat) {q n n' D S : Nat}
    {Q : List Nat} {c c' : Chal U32} {e e' : ChalExpr} {l checks : List Expr} {is : List (Nat × Nat)},
    CS n Q D e → e.input = [] → e.output = [] → Tot n Q S l →
    indicesExpr perm bits k q c e n = some (is, checks, c', e', n') →
    ∃ Q', n ≤ n' ∧ (∀ q ∈ Q', q ≤ n') ∧ Tot n' Q' (S + upto (fun i => D + (i + 1)) k) (l ++ checks)
  | 0, q, n, n', D, S, Q, c, c', e, e', l, checks, is, h, hi, ho, ht, hd => by
    cases hd
    refine ⟨Q, le_refl _, h.bound, ?_⟩
    rw [List.append_nil]
    exact ht.up (le_refl _) (by simp [upto])
  | k + 1, q, n, n', D, S, Q, c, c', e, e', l, checks, is, h, hi, ho, ht, hd => by
    simp only [indicesExpr, Option.bind_eq_bind, Option.bind_eq_some_iff] at hd
    obtain ⟨⟨i, c1⟩, -, ⟨x, e1, n1⟩, h1, ⟨js, cs, c3, e3, n3⟩, h3, h4⟩ := hd
    cases h4
    obtain ⟨Q1, g1, g2, g3, D', g4, g5, g6, g7⟩ := sampleBits_tot (value := [i]) h hi ht h1
    obtain rfl := g5 ho
    obtain ⟨Q2, m1, m2, m3⟩ := indicesExpr_tot k g6 g2 g3 g7 h3
    refine ⟨Q2, le_trans g1 m1, m2, ?_⟩
    rw [List.append_assoc, List.singleton_append] at m3
    refine m3.up (le_refl _) ?_
    rw [upto]
    have : upto (fun i => D + (i + 1 + 1)) k ≤ upto (fun i => D + 1 + (i + 1)) k := upto_le _ fun i => by omega
    omega

/-- The challenges outside the opening proof: the first one counts. -/
theorem starkChallenges_tot {perm : List U32 → List U32} {w d n n' D : Nat} {trace quotient : Roots}
    (h1 : w ≤ trace.length) (h2 : w ≤ quotient.length)
    {c c' : Chal U32} {e e' : ChalExpr} {checks : List Expr} {zetaE : Expr} {alpha zeta : BB4}
    (h : CS n [] D e) (hi : e.input = [])
    (hd : starkChallenges perm d trace quotient c e n = some (alpha, zeta, zetaE, checks, c', e', n')) :
    ∃ Q', n ≤ n' ∧ e'.input = [] ∧ e'.output = [] ∧ CS n' Q' (D + 2 * w) e' ∧ Tot n' Q' (D + w) checks := by
  simp only [starkChallenges, Option.bind_eq_bind, Option.bind_eq_some_iff] at hd
  obtain ⟨c1, -, ⟨e1, n1⟩, a1, ⟨al, c2⟩, -, ⟨xa, ca, e2, n2⟩, a2, c3, -, ⟨e3, n3⟩, a3, ⟨ze, c4⟩, -, ⟨xz, cz, e4, n4⟩, a4, a5⟩ := hd
  obtain ⟨k1, k2, k3, k4⟩ := observeRoots_cs trace h hi a1
  have ht0 : Tot n1 [] 0 [] := ⟨by simp [idsList], by simp, by simp⟩
  obtain ⟨Q1, g1, g2, g3, D1, g4, g5, g6, g7⟩ := sampleCheck_tot k2 k3 ht0 a2
  obtain ⟨m1, m2, m3, m4⟩ := observeRoots_cs quotient g6 g2 a3
  unfold sampleCheck at a4
  rw [Option.bind_eq_bind, Option.bind_eq_some_iff] at a4
  obtain ⟨⟨y, e5, n5⟩, b1, b2⟩ := a4
  obtain ⟨a, t, i1, rfl, rfl, ⟨D2, i2, i3, i4, i5⟩, i6, i7⟩ := sample_cs m2 m3 b1
  simp only [Dsl.equalC, Dsl.constant, Dsl.equal, Dsl.mk] at b2
  cases b2
  simp only [rootExpr, Dsl.mul, Dsl.equalC, Dsl.constant, Dsl.equal, Dsl.mk] at a5
  cases a5
  have hb : ∀ b, a < b → ∀ q ∈ Q1, q < b := fun b hb q hq => by have := m2.bound q hq; omega
  have hz : ∀ m, a + 1 ≤ m → Node m Q1 0 (.node (a + 1) .sampleExt 4 [t]) := fun m hm =>
    Node.mkAt hm (hb _ (by omega)) fun x hx => by
      rw [List.mem_singleton.1 hx]; exact i4.up (by omega) (Nat.zero_le _)
  refine ⟨Q1, by omega, i6, i7, i5.up (by omega) (by omega), ?_⟩
  have hca := g7.up (le_refl _) (show D + w ≤ 0 + D1 by omega)
  refine ((hca.snoc0 (n' := a + 1 + 1 + 1) (by omega) (Node.mkAt (le_refl _) (hb _ (by omega)) ?_)).snoc0 (by omega)
    (Node.mkAt (le_refl _) (hb _ (by omega)) ?_))
  · intro x hx
    simp only [List.mem_cons, List.not_mem_nil, or_false] at hx
    rcases hx with rfl | rfl
    · exact hz _ (by omega)
    · exact Node.mkAt (by omega) (hb _ (by omega)) (by simp)
  · intro x hx
    simp only [List.mem_cons, List.not_mem_nil, or_false] at hx
    rcases hx with rfl | rfl
    · refine Node.mkAt (by omega) (hb _ (by omega)) fun x hx => ?_
      simp only [List.mem_cons, List.not_mem_nil, or_false] at hx
      rcases hx with rfl | rfl
      · exact hz _ (by omega)
      · refine Node.mkAt (by omega) (hb _ (by omega)) fun x hx => ?_
        rw [List.mem_singleton.1 hx]
        exact Node.mkAt (by omega) (hb _ (by omega)) (by simp)
    · exact Node.mkAt (by omega) (hb _ (by omega)) (by simp)

theorem upto_eq (f : Nat → Nat) : ∀ k, upto f k = ((List.range k).map f).sum
  | 0 => rfl
  | k + 1 => by
    rw [upto, upto_eq (fun i => f (i + 1)) k, List.range_succ_eq_map, List.map_cons, List.sum_cons, List.map_map]
    rfl

/-- All the checks. -/
theorem allChallenges_tot {perm : List U32 → List U32} {cfg : Config} {P IP : Type} {w d n0 : Nat}
    {trace quotient : Roots} {proof : FriProof BB4 Roots P U32 IP} (h1 : w ≤ trace.length) (h2 : w ≤ quotient.length)
    (h3 : ∀ r ∈ proof.commitPhaseCommits, w ≤ r.length) {c : Chal U32}
    {r : (BB4 × BB4 × BB4 × FriChallenges BB4) × Expr × List Expr × Chal U32 × ChalExpr × Nat}
    (hd : allChallenges perm cfg d trace quotient proof c (ChalExpr.new n0).1 (ChalExpr.new n0).2 = .ok r) :
    ∃ Q, (∀ q ∈ Q, q ≤ r.2.2.2.2.2) ∧
      Tot r.2.2.2.2.2 Q (challengeHashes w proof.commitPhaseCommits.length cfg.numQueries) r.2.2.1 := by
  rw [allChallenges, Res.bind_eq_ok] at hd
  obtain ⟨⟨alpha, zeta, zE, cks, c1, e1, n1⟩, a1, hd⟩ := hd
  rw [Res.bind_eq_ok] at hd
  obtain ⟨⟨batch, c2⟩, -, hd⟩ := hd
  rw [Res.bind_eq_ok] at hd
  obtain ⟨⟨fc, more, c3, e3, n3⟩, a3, hd⟩ := hd
  cases hd
  rw [Res.ofOption_eq_ok] at a1
  obtain ⟨Q1, k1, k2, k3, k4, k5⟩ := starkChallenges_tot h1 h2 (new_cs n0) rfl a1
  rw [bfSampleChallenges, Res.bind_eq_ok] at a3
  obtain ⟨⟨betas, cb, c4, e4, n4⟩, b1, a3⟩ := a3
  rw [Res.ofOption_eq_ok] at b1
  obtain ⟨Q2, m1, m2, m3, m4, m5⟩ := betasExpr_tot _ h3 k4 k2 k3 k5 b1
  simp only at a3
  split at a3
  · cases a3
  rw [Res.bind_eq_ok] at a3
  obtain ⟨⟨accepted, c5⟩, -, a3⟩ := a3
  simp only at a3
  split at a3
  · cases a3
  rw [Res.bind_eq_ok] at a3
  obtain ⟨⟨pow, e5, n5⟩, b2, a3⟩ := a3
  rw [Res.ofOption_eq_ok] at b2
  rw [Res.bind_eq_ok] at a3
  obtain ⟨⟨is, ci, c6, e6, n6⟩, b3, a3⟩ := a3
  rw [Res.ofOption_eq_ok] at b3
  cases a3
  obtain ⟨Q3, i1, i2, i3, i4, i5⟩ := checkWitness_tot m4 m2 m5 b2
  obtain ⟨Q4, j1, j2, j3⟩ := indicesExpr_tot _ i4 i2 i3 i5 b3
  refine ⟨Q4, j2, ?_⟩
  simp only [List.append_assoc, List.singleton_append] at j3
  refine j3.up (le_refl _) ?_
  have e1 : upto (fun i => (i + 3) * w) proof.commitPhaseCommits.length ≤
      upto (fun i => 0 + 2 * w + (i + 1) * w) proof.commitPhaseCommits.length :=
    upto_le _ fun i => le_of_eq (by ring)
  have e2 : upto (fun i => (proof.commitPhaseCommits.length + 2) * w + 1 + (i + 1)) cfg.numQueries ≤
      upto (fun i => 0 + 2 * w + proof.commitPhaseCommits.length * w + 1 + (i + 1)) cfg.numQueries :=
    upto_le _ fun i => le_of_eq (by ring)
  have e3 : (proof.commitPhaseCommits.length + 2) * w = 2 * w + proof.commitPhaseCommits.length * w := by ring
  unfold challengeHashes
  rw [← upto_eq, ← upto_eq]
  omega

/-! ### The script -/

theorem embed_work {n0 : Nat} {N : Nat → Nat} : ∀ (l : List Expr) (x : Expr) (n : Nat), n0 ≤ n →
    (∀ i, n0 < i → N i ≤ 1) → (InputManager.embed x l n).1.work N = x.work N + workList N l
  | [], x, n, _, _ => by simp [InputManager.embed, workList]
  | y :: l, x, n, hn, hN => by
    rw [InputManager.embed]
    simp only [Dsl.equal, Dsl.mk]
    rw [embed_work l _ (n + 1) (by omega) hN, Expr.work, if_neg fun h => by have := hN (n + 1) (by omega); omega]
    simp only [Opc.hash, workList]
    omega

theorem embed_count : ∀ (l : List Expr) (x : Expr) (n i : Nat),
    (InputManager.embed x l n).1.ids.count i = x.ids.count i + (idsList l).count i + (if n < i ∧ i ≤ n + l.length then 1 else 0)
  | [], x, n, i => by
    simp only [InputManager.embed, idsList, List.count_nil, List.length_nil]
    rw [if_neg (by omega)]; rfl
  | y :: l, x, n, i => by
    rw [InputManager.embed]
    simp only [Dsl.equal, Dsl.mk]
    rw [embed_count l _ (n + 1) i]
    simp only [Expr.ids, idsList, List.append_nil, List.count_cons, List.count_append, List.length_cons, beq_iff_eq]
    split <;> split <;> split <;> omega

/-- The script of the challenges' manager. -/
theorem manager_length {L : U31Lib} {T : TrackerLib} {n S N N' : Nat} {Q : List Nat} {checks : List Expr} {m m' : InputManager}
    {e : Expr} {p : List Op} (hQ : ∀ q ∈ Q, q ≤ n) (ht : Tot n Q S checks) (hm : challengerManager checks = some m)
    (hN : n ≤ N) (he : m.embedHintVerify N = some (m', N')) (hx : m'.exec = some e) (hp : m'.script L T e = some p) :
    89000 * S ≤ p.length := by
  unfold challengerManager at hm
  rw [Option.map_eq_some_iff] at hm
  obtain ⟨last, h1, rfl⟩ := hm
  have hc : checks = checks.dropLast ++ [last] := by
    rw [List.getLast?_eq_some_iff] at h1
    obtain ⟨ys, rfl⟩ := h1
    simp
  rw [hc] at ht
  generalize checks.dropLast = init at ht he
  simp only [InputManager.embedHintVerify, Option.some.injEq, Prod.mk.injEq] at he
  obtain ⟨rfl, -⟩ := he
  simp only [Option.some.injEq] at hx
  subst hx
  unfold InputManager.script at hp
  rw [Option.bind_eq_bind, Option.bind_eq_some_iff] at hp
  obtain ⟨⟨vs, t⟩, h2, h3⟩ := hp
  cases h3
  have h4 := compile_length h2
  have hc : ∀ i, (InputManager.embed last init N).1.ids.count i =
      (idsList (init ++ [last])).count i + (if N < i ∧ i ≤ N + init.length then 1 else 0) := by
    intro i
    rw [embed_count, idsList_append, List.count_append]
    simp only [idsList, List.append_nil]
    omega
  have hv : ∀ i, simulate (InputManager.embed last init N).1 (fun _ => 0) i ≤ (InputManager.embed last init N).1.ids.count i :=
    fun i => by simpa using simulate_le (InputManager.embed last init N).1 (fun _ => 0) i
  have hw := embed_work (N := simulate (InputManager.embed last init N).1 fun _ => 0) (n0 := N) init last N (le_refl _)
    fun i hi => by
      refine (hv i).trans ?_
      rw [hc, List.count_eq_zero.2 fun hm => by have := ht.le i hm; omega]
      split <;> omega
  have hS := ht.work (simulate (InputManager.embed last init N).1 fun _ => 0) fun q hq => by
    refine (hv q).trans ?_
    rw [hc, if_neg (by have := hQ q hq; omega)]
    exact ht.one q hq
  rw [workList_append] at hS
  simp only [workList] at hS
  have : S ≤ (InputManager.embed last init N).1.work (simulate (InputManager.embed last init N).1 fun _ => 0) := by omega
  exact (Nat.mul_le_mul_left _ this).trans h4

end TapStark.Size
