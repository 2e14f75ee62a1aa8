import Verif.Props.RunDsl
import Verif.Props.UniScripts
import Verif.Props.Express

/-!
C60, in the expression language: entries of a table.
-/

namespace TapStark

variable {cfg : Cfg} {L : U31Lib} {T : TrackerLib}

namespace Lookup

/-- Kinds of the nodes below: every entry of a table is an element of the base field. -/
def kindsOf (e : Expr) : List Kind :=
  match e.opc with
  | .table es => List.replicate es.length .base
  | .constant vs => [constKind vs]
  | .equal => [.nat 2]
  | _ => [.base]

theorem tInv_new (cfg : Cfg) : TInv cfg ⟨[], [], []⟩ [] [] Tracker.new (some fun _ => []) where
  nodup := by simp [Tracker.new]
  lt := by simp [Tracker.new]
  small := by simp [Tracker.new]
  sized := by simp [Tracker.new]
  run := rfl

theorem table_types {K : Variable → Kind} (t : List BB) :
    (Opc.table (t.map bbField.u32)).Types K [] (List.replicate t.length .base) := by
  refine ⟨rfl, ?_⟩
  induction t with
  | nil => exact .nil
  | cons x t ih => exact .cons ⟨_, bbField_ok.const x, by rw [val_bb]; exact ⟨val_lt' x, (val_lt' x).trans (by decide)⟩⟩ ih

theorem mapM_table (t : List BB) : (t.map bbField.u32).mapM constVal = some (t.map bbField.val) := by
  rw [List.mapM_map]
  exact Uni.mapM_of fun x _ => bbField_ok.const x

/-- An expression without inputs, of the kind of a comparison, is run. -/
theorem run_closed (hL : L.Ok cfg) (hT : T.Ok cfg) {e : Expr} {v : List Nat} {n : Nat}
    (hw : WellTyped (fun _ => .base) kindsOf (Dsl.equalC e v n).1) (hsh : Shared (Dsl.equalC e v n).1)
    (hnr : ∀ s w, Sub s (Dsl.equalC e v n).1 → ¬ Reads s w) (hmu : MultiOk (Dsl.equalC e v n).1) {x y : BB}
    (he : eval (fun _ => .nat 0) e = some [bbField.val x]) (hv : constVal v = some (bbField.val y)) :
    ∃ b, runDsl cfg L T e v n = some b ∧ (b = true ↔ x = y) := by
  obtain ⟨vs, t', rest, h1, h2, h3, h4, h5, h6, h7⟩ := C54_shared (vg := fun _ => none) (env := fun _ => .nat 0) hL hT hw hsh
    (fun s _ v _ hs _ h => absurd (.inl h) (hnr s v hs)) hmu (tInv_new cfg) (fun s v hs h => absurd h (hnr s v hs))
  have hrest : rest = [] := List.eq_nil_of_sublist_nil h5
  subst hrest
  have hev : eval (fun _ => .nat 0) (Dsl.equalC e v n).1 = some [.nat (if x = y then 1 else 0)] := by
    show eval _ (.node (n + 1 + 1) .equal 1 [e, .node (n + 1) (.constant v) v.length []]) = _
    rw [eval, evalArgs_two, he, eval, evalArgs]
    simp only [Option.bind_some, Opc.denote, hv, Option.map_some, val_bb]
    simp only [ZMod.val_injective _ |>.eq_iff]
  rw [hev] at h7
  refine ⟨accepts cfg t'.script [], ?_, ?_⟩
  · simp only [runDsl, h1, Option.bind_eq_bind, Option.bind_some]
  · rw [accepts, h7]
    have t0 : truthy (num 0) = false := by decide
    have t1 : truthy (num 1) = true := by decide +kernel
    by_cases hxy : x = y
    · simp [Val.enc, hxy, t1, stackOf, altOf, Tracker.new]
    · simp [Val.enc, hxy, t0, stackOf, altOf, Tracker.new]

end Lookup


open Lookup in
/-- C60 in the expression language: `from_table(t).lookup(i, t.len())`, with elements of the base field, has the value of
entry `i`: the assertion that it is `v` is run without panic, and succeeds exactly if `t[i] = v`. -/
theorem C60_expression (hL : L.Ok cfg) (hT : T.Ok cfg) (t : List BB) (i : Nat) (hi : i < t.length) (h31 : i < 2 ^ 31) (v : BB)
    (n : Nat) :
    let (tab, n) := Dsl.fromTable bbField.consts.size (t.map bbField.u32) n
    let (e, n) := Dsl.lookup bbField.consts.size tab i t.length n
    ∃ b, runDsl cfg L T e (bbField.u32 v) n = some b ∧ (b = true ↔ t[i] = v) := by
  show ∃ b, runDsl cfg L T (.node (n + 1 + 1 + 1) (.lookup 1 t.length) 1 [.node (n + 1) (.table (t.map bbField.u32)) 1 [],
    .node (n + 1 + 1) (.constant [i]) 1 []]) (bbField.u32 v) (n + 1 + 1 + 1) = some b ∧ _
  have hsub : ∀ s, Sub s (Dsl.equalC (.node (n + 1 + 1 + 1) (.lookup 1 t.length) 1 [.node (n + 1) (.table (t.map bbField.u32)) 1 [],
    .node (n + 1 + 1) (.constant [i]) 1 []]) (bbField.u32 v) (n + 1 + 1 + 1)).1 →
      s = .node (n + 5) .equal 1 [.node (n + 3) (.lookup 1 t.length) 1 [.node (n + 1) (.table (t.map bbField.u32)) 1 [],
        .node (n + 2) (.constant [i]) 1 []], .node (n + 4) (.constant (bbField.u32 v)) 1 []] ∨
      s = .node (n + 3) (.lookup 1 t.length) 1 [.node (n + 1) (.table (t.map bbField.u32)) 1 [],
        .node (n + 2) (.constant [i]) 1 []] ∨
      s = .node (n + 1) (.table (t.map bbField.u32)) 1 [] ∨ s = .node (n + 2) (.constant [i]) 1 [] ∨
      s = .node (n + 4) (.constant (bbField.u32 v)) 1 [] := by
    intro s hs
    have := mem_subs.mpr hs
    simp only [Dsl.equalC, Dsl.equal, Dsl.constant, Dsl.mk, subs, subsArgs, List.mem_cons, List.mem_append, List.not_mem_nil,
      or_false] at this
    rcases this with h | (h | h | h) | h
    · exact .inl h
    · exact .inr (.inl h)
    · exact .inr (.inr (.inl h))
    · exact .inr (.inr (.inr (.inl h)))
    · exact .inr (.inr (.inr (.inr h)))
  have hbase : ∀ x : BB, constKind (bbField.u32 x) = .nat (x.val + 1) := fun _ => rfl
  refine run_closed hL hT ⟨?_, ?_, ?_, ?_⟩ ?_ ?_ ?_ ?_ (bbField_ok.const v)
  · intro s hs
    rcases hsub s hs with rfl | rfl | rfl | rfl | rfl
    · exact ⟨.base, _, rfl, .inr ⟨⟨_, rfl⟩, ⟨_, hbase v⟩⟩, rfl⟩
    · refine ⟨.base, i + 1, ?_, hi, rfl, rfl, rfl⟩
      show [List.replicate (t.map bbField.u32).length Kind.base, [constKind [i]]] = _
      rw [List.length_map]
      rfl
    · have := table_types (K := fun _ => .base) t
      show Opc.Types _ _ [] (List.replicate (t.map bbField.u32).length Kind.base)
      rwa [List.length_map]
    · exact ⟨rfl, _, _, rfl, constVal_one h31, Nat.lt_succ_self _, h31⟩
    · exact ⟨rfl, _, _, rfl, bbField_ok.const v, constVal_has (bbField_ok.const v)⟩
  · intro s k hs hk
    rcases hsub s hs with rfl | rfl | rfl | rfl | rfl
    · cases hk; rfl
    · cases hk; rfl
    · have : k = .base := by
        have : k ∈ kindsOf (.node (n + 1) (.table (t.map bbField.u32)) 1 []) := by rw [hk]; simp
        exact List.eq_of_mem_replicate this
      rw [this]; rfl
    · cases hk; rfl
    · cases hk; rfl
  · intro s hs a ha
    rcases hsub s hs with rfl | rfl | rfl | rfl | rfl <;> simp only [Expr.args, List.mem_cons, List.not_mem_nil, or_false] at ha
    · rcases ha with rfl | rfl <;> exact ⟨1, rfl⟩
    · rcases ha with rfl | rfl <;> exact ⟨1, rfl⟩
  · intro s hs h a ha
    rcases hsub s hs with rfl | rfl | rfl | rfl | rfl <;> simp only [Expr.args, List.mem_cons, List.not_mem_nil, or_false] at ha
    · rcases ha with rfl | rfl <;> rfl
    · rcases ha with rfl | rfl <;> rfl
  · intro s s' hs hs' h
    rcases hsub s hs with rfl | rfl | rfl | rfl | rfl <;> rcases hsub s' hs' with rfl | rfl | rfl | rfl | rfl <;>
      first | rfl | (simp only [Expr.id] at h; omega)
  · intro s w hs h
    rcases hsub s hs with rfl | rfl | rfl | rfl | rfl <;> rcases h with h | h <;> cases h
  · intro s hs h
    rcases hsub s hs with rfl | rfl | rfl | rfl | rfl
    · exact absurd rfl h
    · exact absurd rfl h
    · refine .inr fun u hu => ?_
      cases hu with
      | refl => exact ⟨fun _ h => (by cases h), fun h' => absurd h' h⟩
      | arg ha _ => cases ha
    · exact absurd rfl h
    · exact absurd rfl h
  · rw [eval, evalArgs_two, eval, evalArgs, eval, evalArgs]
    simp only [Option.bind_some, Opc.denote, mapM_table, constVal_one h31, Option.map_some]
    simp [List.getElem?_eq_getElem hi]

open Lookup in
/-- C60, a table used twice, as the quotient check does: the difference of two entries. -/
theorem C60_shared_table (hL : L.Ok cfg) (hT : T.Ok cfg) (t : List BB) (i j : Nat) (hi : i < t.length) (hj : j < t.length)
    (h31 : t.length ≤ 2 ^ 31) (v : BB) (n : Nat) :
    let (tab, n) := Dsl.fromTable bbField.consts.size (t.map bbField.u32) n
    let (x, n) := Dsl.lookup bbField.consts.size tab i t.length n
    let (y, n) := Dsl.lookup bbField.consts.size tab j t.length n
    let (e, n) := Dsl.sub x y n
    ∃ b, runDsl cfg L T e (bbField.u32 v) n = some b ∧ (b = true ↔ t[i] - t[j] = v) := by
  show ∃ b, runDsl cfg L T
    (.node (n + 6) .sub 1 [.node (n + 3) (.lookup 1 t.length) 1 [.node (n + 1) (.table (t.map bbField.u32)) 1 [], .node (n + 2) (.constant [i]) 1 []], .node (n + 5) (.lookup 1 t.length) 1 [.node (n + 1) (.table (t.map bbField.u32)) 1 [], .node (n + 4) (.constant [j]) 1 []]])
    (bbField.u32 v) (n + 6) = some b ∧ _
  have hsub : ∀ s, Sub s (Dsl.equalC
      (.node (n + 6) .sub 1 [.node (n + 3) (.lookup 1 t.length) 1 [.node (n + 1) (.table (t.map bbField.u32)) 1 [], .node (n + 2) (.constant [i]) 1 []], .node (n + 5) (.lookup 1 t.length) 1 [.node (n + 1) (.table (t.map bbField.u32)) 1 [], .node (n + 4) (.constant [j]) 1 []]])
      (bbField.u32 v) (n + 6)).1 →
      s = .node (n + 8) .equal 1 [.node (n + 6) .sub 1 [.node (n + 3) (.lookup 1 t.length) 1 [.node (n + 1) (.table (t.map bbField.u32)) 1 [], .node (n + 2) (.constant [i]) 1 []], .node (n + 5) (.lookup 1 t.length) 1 [.node (n + 1) (.table (t.map bbField.u32)) 1 [], .node (n + 4) (.constant [j]) 1 []]], .node (n + 7) (.constant (bbField.u32 v)) 1 []] ∨
      s = .node (n + 6) .sub 1 [.node (n + 3) (.lookup 1 t.length) 1 [.node (n + 1) (.table (t.map bbField.u32)) 1 [], .node (n + 2) (.constant [i]) 1 []], .node (n + 5) (.lookup 1 t.length) 1 [.node (n + 1) (.table (t.map bbField.u32)) 1 [], .node (n + 4) (.constant [j]) 1 []]] ∨
      s = .node (n + 3) (.lookup 1 t.length) 1 [.node (n + 1) (.table (t.map bbField.u32)) 1 [], .node (n + 2) (.constant [i]) 1 []] ∨
      s = .node (n + 5) (.lookup 1 t.length) 1 [.node (n + 1) (.table (t.map bbField.u32)) 1 [], .node (n + 4) (.constant [j]) 1 []] ∨
      s = .node (n + 1) (.table (t.map bbField.u32)) 1 [] ∨ s = .node (n + 2) (.constant [i]) 1 [] ∨ s = .node (n + 4) (.constant [j]) 1 [] ∨ s = .node (n + 7) (.constant (bbField.u32 v)) 1 [] := by
    intro s hs
    have := mem_subs.mpr hs
    simp only [Dsl.equalC, Dsl.equal, Dsl.constant, Dsl.mk, subs, subsArgs, List.mem_cons, List.mem_append, List.not_mem_nil,
      or_false] at this
    rcases this with h | (h | (h | h | h) | (h | h | h)) | h
    · exact .inl h
    · exact .inr (.inl h)
    · exact .inr (.inr (.inl h))
    · exact .inr (.inr (.inr (.inr (.inl h))))
    · exact .inr (.inr (.inr (.inr (.inr (.inl h)))))
    · exact .inr (.inr (.inr (.inl h)))
    · exact .inr (.inr (.inr (.inr (.inl h))))
    · exact .inr (.inr (.inr (.inr (.inr (.inr (.inl h))))))
    · exact .inr (.inr (.inr (.inr (.inr (.inr (.inr h))))))
  have hbase : ∀ x : BB, constKind (bbField.u32 x) = .nat (x.val + 1) := fun _ => rfl
  have hlen : (t.map bbField.u32).length = t.length := List.length_map _
  have hl : ∀ k, [List.replicate (t.map bbField.u32).length Kind.base, [constKind [k]]] =
      [List.replicate t.length Kind.base, [.nat (k + 1)]] := fun k => by rw [hlen]; rfl
  refine run_closed hL hT ⟨?_, ?_, ?_, ?_⟩ ?_ ?_ ?_ ?_ (bbField_ok.const v)
  · intro s hs
    rcases hsub s hs with rfl | rfl | rfl | rfl | rfl | rfl | rfl | rfl
    · exact ⟨.base, _, rfl, .inr ⟨⟨_, rfl⟩, ⟨_, hbase v⟩⟩, rfl⟩
    · exact ⟨.base, .base, rfl, .inr ⟨_, Nat.le_refl _, rfl⟩, .inr ⟨_, Nat.le_refl _, rfl⟩, rfl⟩
    · exact ⟨.base, i + 1, hl i, hi, rfl, rfl, rfl⟩
    · exact ⟨.base, j + 1, hl j, hj, rfl, rfl, rfl⟩
    · have := table_types (K := fun _ => .base) t
      show Opc.Types _ _ [] (List.replicate (t.map bbField.u32).length Kind.base)
      rwa [hlen]
    · exact ⟨rfl, _, _, rfl, constVal_one (by omega), Nat.lt_succ_self _, by omega⟩
    · exact ⟨rfl, _, _, rfl, constVal_one (by omega), Nat.lt_succ_self _, by omega⟩
    · exact ⟨rfl, _, _, rfl, bbField_ok.const v, constVal_has (bbField_ok.const v)⟩
  · intro s k hs hk
    rcases hsub s hs with rfl | rfl | rfl | rfl | rfl | rfl | rfl | rfl
    case inr.inr.inr.inr.inl =>
      have : k = .base := by
        have : k ∈ kindsOf (.node (n + 1) (.table (t.map bbField.u32)) 1 []) := by rw [hk]; simp
        exact List.eq_of_mem_replicate this
      rw [this]; rfl
    all_goals cases hk; rfl
  · intro s hs a ha
    rcases hsub s hs with rfl | rfl | rfl | rfl | rfl | rfl | rfl | rfl <;> simp only [Expr.args, List.mem_cons, List.not_mem_nil, or_false] at ha
    all_goals rcases ha with rfl | rfl <;> exact ⟨1, rfl⟩
  · intro s hs h a ha
    rcases hsub s hs with rfl | rfl | rfl | rfl | rfl | rfl | rfl | rfl <;> simp only [Expr.args, List.mem_cons, List.not_mem_nil, or_false] at ha
    all_goals rcases ha with rfl | rfl <;> rfl
  · intro s s' hs hs' h
    rcases hsub s hs with rfl | rfl | rfl | rfl | rfl | rfl | rfl | rfl <;> rcases hsub s' hs' with rfl | rfl | rfl | rfl | rfl | rfl | rfl | rfl <;>
      first | rfl | (simp only [Expr.id] at h; omega)
  · intro s w hs h
    rcases hsub s hs with rfl | rfl | rfl | rfl | rfl | rfl | rfl | rfl <;> rcases h with h | h <;> cases h
  · intro s hs h
    rcases hsub s hs with rfl | rfl | rfl | rfl | rfl | rfl | rfl | rfl
    case inr.inr.inr.inr.inl =>
      refine .inr fun u hu => ?_
      cases hu with
      | refl => exact ⟨fun _ h => (by cases h), fun h' => absurd h' h⟩
      | arg ha _ => cases ha
    all_goals exact absurd rfl h
  · have hent : ∀ id id' id'' k (hk : k < t.length), eval (fun _ => .nat 0) (.node id (.lookup 1 t.length) 1
        [.node id' (.table (t.map bbField.u32)) 1 [], .node id'' (.constant [k]) 1 []]) = some [bbField.val t[k]] := by
      intro id id' id'' k hk
      rw [eval, evalArgs_two, eval, evalArgs, eval, evalArgs]
      simp only [Option.bind_some, Opc.denote, mapM_table, constVal_one (show k < 2 ^ 31 by omega), Option.map_some]
      simp [List.getElem?_eq_getElem hk]
    rw [eval, evalArgs_two, hent _ _ _ i hi, hent _ _ _ j hj]
    show some [Val.ofF ((bbField.val t[i]).toF.sub (bbField.val t[j]).toF)] = _
    rw [bbField_ok.sub]

/-- C60: a lookup in a table of extension field elements is refused when the script is generated, whatever table, index
and value are. -/
theorem C60_extension_refused (t : List Stark.BB4) (i len n : Nat) (v : List Nat) :
    let (tab, n) := Dsl.fromTable bb4Field.consts.size (t.map bb4Field.u32) n
    let (e, n) := Dsl.lookup bb4Field.consts.size tab i len n
    runDsl cfg L T e v n = none := by
  show runDsl cfg L T (.node (n + 3) (.lookup 4 len) 4 [.node (n + 1) (.table (t.map bb4Field.u32)) 4 [],
    .node (n + 2) (.constant [i]) 1 []]) v (n + 3) = none
  have hem : ∀ ss, (Opc.lookup 4 len).emit L ss = none := by
    intro ss
    unfold Opc.emit
    split <;> simp_all
  have hl : ∀ (N : Nat → Nat) (args : List Expr) (id size : Nat) (c : CState), c.svar id = none →
      express L T (fun _ => none) N true (.node id (.lookup 4 len) size args) c = none := by
    intro N args id size c hc
    rw [express, hc]
    split
    · rfl
    rw [if_neg (by simp)]
    split
    · rfl
    cases expressArgs L T (fun _ => none) N true args c with
    | none => rfl
    | some r => simp [hem]
  have hc : compile L T (fun _ => none) true (Dsl.equalC (.node (n + 3) (.lookup 4 len) 4
      [.node (n + 1) (.table (t.map bb4Field.u32)) 4 [], .node (n + 2) (.constant [i]) 1 []]) v (n + 3)).1 Tracker.new = none := by
    unfold compile
    show (express L T _ _ true (.node (n + 5) .equal 1 [.node (n + 3) (.lookup 4 len) 4 _, _]) _).bind _ = none
    rw [express]
    split
    · rfl
    rw [if_neg (by simp)]
    split
    · rfl
    rw [expressArgs, hl _ _ _ _ _ rfl]
    rfl
  simp only [runDsl, hc, Option.bind_eq_bind, Option.bind_none]

/-- An instance with the scripts of the repository: entry 1 of 5, 6, 7 is 6 and nothing else. -/
theorem C60_expression_instance (cfg : Cfg) (v : BB) : ∃ b,
    runDsl cfg (repoLib 2013265921) refTracker (Dsl.lookup 1 (Dsl.fromTable 1 ([5, 6, 7].map bbField.u32) 0).1 1 3 1).1
      (bbField.u32 v) 3 = some b ∧ (b = true ↔ 6 = v) :=
  C60_expression (repoLib_ok cfg) (refTracker_ok cfg) [5, 6, 7] 1 (by decide) (by decide) v 0

end TapStark
