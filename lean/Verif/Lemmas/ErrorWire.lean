import Verif.Spec.ErrorWire

namespace DD.ErrorWire

theorem readDf_eq (p : DfProto) (h : p ≠ .none) : readDf p = p := by
  unfold readDf
  cases p <;> first | rfl | exact absurd rfl h

theorem toIo_fromIo (m : String) (e : IoErr) (h : IoKept e) : toIo (fromIo m e) = (e, m) := by
  obtain ⟨k, t⟩ := e
  cases k <;> first | rfl | exact absurd rfl (h _)

theorem readArrow (e : ArrowErr) (ctx : Option String) (h : ∀ m, e ≠ .avro m) :
    readOneof arrowTags ArrowInner.tag (fromArrow e ctx).inner = (fromArrow e ctx).inner := by
  cases e <;> first | rfl | exact absurd rfl (h _)

theorem toArrow_fromArrow (e : ArrowErr) (ctx : Option String) (h : ArrowKept e) :
    toArrow { fromArrow e ctx with inner := readOneof arrowTags ArrowInner.tag (fromArrow e ctx).inner } =
      (e, ctx) := by
  have : ∀ m, e ≠ .avro m := by rintro m rfl; exact h
  rw [readArrow e ctx this]
  cases e with
  | io m e => simp only [fromArrow, toArrow, toIo_fromIo m e h]
  | _ => rfl

theorem readParquet (e : ParquetErr) :
    readOneof parquetTags ParquetInner.tag (fromParquet e) = fromParquet e := by
  cases e <;> rfl

theorem readStore (e : StoreErr) : readOneof storeTags StoreInner.tag (fromStore e) = fromStore e := by
  cases e <;> rfl

theorem readParser (e : ParserErr) : readOneof parserTags ParserInner.tag (fromParser e) = fromParser e := by
  cases e <;> rfl

theorem readTableRef (e : TableRef) :
    readOneof tableRefTags TableRefInner.tag (fromTableRef e) = fromTableRef e := by
  cases e <;> rfl

theorem toTableRef_from (e : TableRef) : toTableRef (fromTableRef e) = e := by cases e <;> rfl

theorem wireColumn (c : Column) : (fromColumn c).wire = fromColumn c := by
  obtain ⟨r, n, s⟩ := c
  cases r <;> simp [ColumnProto.wire, fromColumn, readTableRef]

theorem toColumn_from (c : Column) : toColumn (fromColumn c) = { c with spans := [] } := by
  obtain ⟨r, n, s⟩ := c
  cases r <;> simp [toColumn, fromColumn, toTableRef_from]

theorem wireSchema (e : SchemaErr) (bt : Option String) :
    readOneof schemaTags SchemaInner.tag ((fromSchema e bt).inner.map SchemaInner.wire) =
      (fromSchema e bt).inner := by
  have hc : ColumnProto.wire ∘ fromColumn = fromColumn := funext wireColumn
  have h1 : ∀ i : SchemaInner, readOneof schemaTags SchemaInner.tag (some i) = some i := by
    intro i; cases i <;> rfl
  cases e <;> simp [fromSchema, SchemaInner.wire, h1, wireColumn, readTableRef, hc]

theorem parseStore_kept (s : String) (h : s ∈ storeNames) : parseStore s = s := by
  simp only [storeNames, List.mem_cons, List.not_mem_nil, or_false] at h
  rcases h with rfl | rfl | rfl | rfl | rfl | rfl | rfl | rfl | rfl | rfl | rfl | rfl | rfl | rfl <;> rfl

theorem parseStore_mem (s : String) : parseStore s ∈ storeNames := by
  unfold parseStore
  split <;> decide

/-- The error after one trip that does not fail on nesting. -/
def relay (fs : Features) (e : DfErr) : DfErr := toDf fs (fromDf e).wire

theorem relay_context (fs : Features) (c : String) (e : DfErr) :
    relay fs (.context c e) = .context c (relay fs e) := by
  simp [relay, fromDf, DfProto.wire, readDf_eq, toDf]

theorem relay_diagnostic (fs : Features) (d : Nat) (e : DfErr) :
    relay fs (.diagnostic d e) = .diagnostic 0 (relay fs e) := by
  simp [relay, fromDf, DfProto.wire, readDf_eq, toDf]

theorem relay_shared (fs : Features) (e : DfErr) : relay fs (.shared e) = .shared (relay fs e) := by
  simp [relay, fromDf, DfProto.wire, readDf_eq, toDf]

theorem relay_collection (fs : Features) (es : List DfErr) :
    relay fs (.collection es) = .collection (es.map (relay fs)) := by
  simp [relay, fromDf, DfProto.wire, readDf_eq, toDf]

theorem relay_onLeaves (fs : Features) : ∀ e, relay fs e = onLeaves (relay fs) e
  | .context c e => by rw [relay_context, onLeaves, ← relay_onLeaves fs e]
  | .diagnostic d e => by rw [relay_diagnostic, onLeaves, ← relay_onLeaves fs e]
  | .shared e => by rw [relay_shared, onLeaves, ← relay_onLeaves fs e]
  | .collection es => by
    rw [relay_collection, onLeaves]
    congr 1
    exact List.map_congr_left fun e he => relay_onLeaves fs e
  | .arrow _ _ | .parquet _ | .store _ | .io _ | .sql _ _ | .notImplemented _ | .internal _ | .plan _
  | .configuration _ | .schema _ _ | .execution _ | .executionJoin _ | .resourcesExhausted _
  | .external _ _ | .substrait _ | .ffi _ => by rw [onLeaves] <;> simp
termination_by e => sizeOf e
decreasing_by all_goals first | (simp_wf; done) | (simp_wf; omega) | (have := List.sizeOf_lt_of_mem ‹_ ∈ es›; simp_wf; omega)

theorem relay_arrow (fs : Features) (e : ArrowErr) (ctx : Option String) (h : ArrowKept e) :
    relay fs (.arrow e ctx) = .arrow e ctx := by
  simp [relay, fromDf, DfProto.wire, readDf_eq, toDf, toArrow_fromArrow e ctx h]

theorem relay_avro (fs : Features) (m : String) (ctx : Option String) :
    relay fs (.arrow (.avro m) ctx) = .arrow (.external "Malformed protobuf message") none := by
  simp only [relay, fromDf, DfProto.wire, readDf_eq, toDf, ne_eq, reduceCtorEq, not_false_eq_true]
  rfl

theorem relay_parquet (fs : Features) (e : ParquetErr) :
    relay fs (.parquet e) = if fs.parquet then .parquet (toParquet (fromParquet e))
      else .internal ("ParquetError from peer: " ++ showParquet (fromParquet e)) := by
  simp [relay, fromDf, DfProto.wire, readDf_eq, toDf, readParquet]

theorem relay_store (fs : Features) (e : StoreErr) :
    relay fs (.store e) = .store (toStore (fromStore e)) := by
  simp [relay, fromDf, DfProto.wire, readDf_eq, toDf, readStore]

theorem relay_io (fs : Features) (e : IoErr) : relay fs (.io e) = .io (toIo (fromIo "" e)).1 := by
  simp [relay, fromDf, DfProto.wire, readDf_eq, toDf]

theorem toParser_from (e : ParserErr) : toParser (fromParser e) = e := by cases e <;> rfl

theorem relay_sql (fs : Features) (e : ParserErr) (bt : Option String) :
    relay fs (.sql e bt) = if fs.sql then .sql e bt
      else .internal ("SQL error from peer: " ++ showParser (fromParser e) ++ bt.getD "") := by
  simp [relay, fromDf, DfProto.wire, readDf_eq, toDf, readParser, toParser_from]

theorem relay_schema (fs : Features) (e : SchemaErr) (bt : Option String) :
    relay fs (.schema e bt) = .schema (toSchema (fromSchema e bt)).1 bt := by
  simp only [relay, fromDf, DfProto.wire, readDf_eq, toDf, wireSchema, ne_eq, reduceCtorEq, not_false_eq_true]
  rfl

theorem toSchema_from (e : SchemaErr) (bt : Option String) (h : SchemaKept e) :
    (toSchema (fromSchema e bt)).1 = e := by
  have hc : ∀ c : Column, c.spans = [] → toColumn (fromColumn c) = c := by
    intro c hc; rw [toColumn_from]; cases c; simp_all
  cases e with
  | ambiguousReference f => simp [toSchema, fromSchema, hc f h]
  | duplicateQualifiedField q n => simp [toSchema, fromSchema, toTableRef_from]
  | duplicateUnqualifiedField n => rfl
  | fieldNotFound f v =>
    simp only [toSchema, fromSchema, Option.map_some, Option.getD_some, hc f h.1, List.map_map]
    congr 1
    exact (List.map_congr_left fun c hm => hc c (h.2 c hm)).trans (List.map_id v)

theorem toStore_from (e : StoreErr) (h : StoreKept e) : toStore (fromStore e) = e := by
  cases e with
  | generic s m => simp [toStore, fromStore, parseStore_kept s h]
  | unknownConfigurationKey k s => simp [toStore, fromStore, parseStore_kept s h]
  | notImplemented o i => obtain ⟨rfl, rfl⟩ := h; rfl
  | invalidPath _ => exact h.elim
  | join _ => exact h.elim
  | unlisted _ => exact h.elim
  | _ => rfl

theorem relay_kept (fs : Features) (hf : fs = ⟨true, true⟩) : ∀ e, Kept e → relay fs e = e
  | .context c e, h => by rw [relay_context, relay_kept fs hf e (by simpa [Kept] using h)]
  | .diagnostic d e, h => by
    have h : d = 0 ∧ Kept e := by simpa [Kept] using h
    rw [relay_diagnostic, relay_kept fs hf e h.2, h.1]
  | .shared e, h => by rw [relay_shared, relay_kept fs hf e (by simpa [Kept] using h)]
  | .collection es, h => by
    have h : ∀ e ∈ es, Kept e := by simpa [Kept] using h
    rw [relay_collection]
    congr 1
    exact (List.map_congr_left fun e he => relay_kept fs hf e (h e he)).trans (List.map_id es)
  | .arrow e ctx, h => relay_arrow fs e ctx (by simpa [Kept] using h)
  | .parquet e, h => by
    rw [relay_parquet, hf]
    simp only [Kept] at h
    cases e <;> first | rfl | exact h.elim
  | .store e, h => by rw [relay_store, toStore_from e (by simpa [Kept] using h)]
  | .io e, h => by rw [relay_io, toIo_fromIo "" e (by simpa [Kept] using h)]
  | .sql e bt, _ => by rw [relay_sql, hf]; rfl
  | .schema e bt, h => by rw [relay_schema, toSchema_from e bt (by simpa [Kept] using h)]
  | .external ty t, h => by
    have h : ty = .rebuilt := by simpa [Kept] using h
    subst h; simp [relay, fromDf, DfProto.wire, readDf_eq, toDf]
  | .executionJoin _, h => by simp [Kept] at h
  | .ffi _, h => by simp [Kept] at h
  | .notImplemented _, _ | .internal _, _ | .plan _, _ | .configuration _, _ | .execution _, _
  | .resourcesExhausted _, _ | .substrait _, _ => by
    simp [relay, fromDf, DfProto.wire, readDf_eq, toDf]
termination_by e => sizeOf e
decreasing_by all_goals first | (simp_wf; done) | (simp_wf; omega) | (have := List.sizeOf_lt_of_mem ‹_ ∈ es›; simp_wf; omega)

/-! ## Nesting -/

theorem columnDepth (c : Column) : (fromColumn c).depth ≤ 2 := by
  obtain ⟨r, n, s⟩ := c
  rcases r with _ | r
  · simp [fromColumn, ColumnProto.depth]
  · cases r <;> simp [fromColumn, ColumnProto.depth, fromTableRef, tableRefDepth]

theorem foldr_max_le (l : List Nat) (b : Nat) : (∀ x ∈ l, x ≤ b) → l.foldr max 0 ≤ b := by
  induction l with
  | nil => simp
  | cons a l ih =>
    intro h
    simp only [List.foldr_cons]
    exact Nat.max_le.mpr ⟨h a (by simp), ih fun x hx => h x (by simp [hx])⟩

theorem le_foldr_max (l : List Nat) (x : Nat) (h : x ∈ l) : x ≤ l.foldr max 0 := by
  induction l with
  | nil => simp at h
  | cons a l ih =>
    simp only [List.foldr_cons]
    rcases List.mem_cons.mp h with rfl | h
    · exact Nat.le_max_left _ _
    · exact Nat.le_trans (ih h) (Nat.le_max_right _ _)

theorem schemaDepth (e : SchemaErr) (bt : Option String) : (fromDf (.schema e bt)).depth ≤ 5 := by
  cases e with
  | ambiguousReference f =>
    have := columnDepth f
    simp [fromDf, fromSchema, DfProto.depth, SchemaInner.depth]; omega
  | duplicateQualifiedField q n =>
    cases q <;> simp [fromDf, fromSchema, DfProto.depth, SchemaInner.depth, fromTableRef, tableRefDepth]
  | duplicateUnqualifiedField n => simp [fromDf, fromSchema, DfProto.depth, SchemaInner.depth]
  | fieldNotFound f v =>
    have h := foldr_max_le (((some (fromColumn f)).map ColumnProto.depth).toList ++
      (v.map fromColumn).map ColumnProto.depth) 2 (by
        intro x hx
        simp only [Option.map_some, Option.toList_some, List.cons_append, List.nil_append, List.mem_cons,
          List.map_map, List.mem_map, Function.comp] at hx
        rcases hx with rfl | ⟨c, _, rfl⟩ <;> exact columnDepth _)
    simp only [fromDf, fromSchema, DfProto.depth, SchemaInner.depth]
    omega

theorem depth_le : ∀ e, (fromDf e).depth ≤ wraps e + 5
  | .context c e => by have := depth_le e; simp [fromDf, DfProto.depth, wraps]; omega
  | .diagnostic d e => by have := depth_le e; simp [fromDf, DfProto.depth, wraps]; omega
  | .shared e => by have := depth_le e; simp [fromDf, DfProto.depth, wraps]; omega
  | .collection es => by
    have h : ∀ x ∈ (es.map fromDf).map (fun e => e.depth + 1), x ≤ (es.map wraps).foldr max 0 + 6 := by
      intro x hx
      simp only [List.map_map, List.mem_map, Function.comp] at hx
      obtain ⟨e, he, rfl⟩ := hx
      have := depth_le e
      have := le_foldr_max (es.map wraps) (wraps e) (List.mem_map_of_mem he)
      omega
    have h := foldr_max_le _ _ h
    simp only [fromDf, DfProto.depth, wraps]
    omega
  | .schema e bt => Nat.le_trans (schemaDepth e bt) (by omega)
  | .arrow e _ => by cases e <;> simp [fromDf, fromArrow, DfProto.depth, ArrowInner.depth]
  | .parquet e => by cases e <;> simp [fromDf, fromParquet, DfProto.depth, ParquetInner.depth]
  | .store e => by cases e <;> simp [fromDf, fromStore, DfProto.depth]
  | .io _ | .sql _ _ | .notImplemented _ | .internal _ | .plan _
  | .configuration _ | .execution _ | .executionJoin _ | .resourcesExhausted _
  | .external _ _ | .substrait _ | .ffi _ => by simp [fromDf, DfProto.depth]
termination_by e => sizeOf e
decreasing_by all_goals first | (simp_wf; done) | (simp_wf; omega) | (have := List.sizeOf_lt_of_mem ‹_ ∈ es›; simp_wf; omega)

theorem received_eq (fs : Features) (shown : Status → String) (e : DfErr) (h : (fromDf e).depth ≤ 100) :
    received fs shown e = relay fs e := by
  simp [received, mapFlight, mapStatus, toStatus, statusToDf, decode, recursionLimit, h, relay]

theorem received_deep (fs : Features) (shown : Status → String) (e : DfErr) (h : 100 < (fromDf e).depth) :
    received fs shown e = .internal
      "Cannot decode DataFusionError: failed to decode Protobuf message: recursion limit reached" := by
  have : ¬ (fromDf e).depth ≤ 100 := by omega
  simp [received, mapFlight, mapStatus, toStatus, statusToDf, decode, recursionLimit, this]

theorem relay_leaf (fs : Features) (e : DfErr) (h : Leaf e) : Leaf (relay fs e) := by
  cases e with
  | context _ _ => exact h.elim
  | diagnostic _ _ => exact h.elim
  | collection _ => exact h.elim
  | shared _ => exact h.elim
  | parquet e => rw [relay_parquet]; split <;> trivial
  | sql e bt => rw [relay_sql]; split <;> trivial
  | schema e bt => rw [relay_schema]; trivial
  | arrow e ctx => simp [relay, fromDf, DfProto.wire, readDf_eq, toDf, Leaf]
  | store e => rw [relay_store]; trivial
  | _ => simp [relay, fromDf, DfProto.wire, readDf_eq, toDf, Leaf]

theorem wraps_leaf (e : DfErr) (h : Leaf e) : wraps e = 0 := by
  cases e <;> first | exact h.elim | simp [wraps]

theorem wraps_relay (fs : Features) : ∀ e, wraps (relay fs e) = wraps e
  | .context c e => by rw [relay_context, wraps, wraps, wraps_relay fs e]
  | .diagnostic d e => by rw [relay_diagnostic, wraps, wraps, wraps_relay fs e]
  | .shared e => by rw [relay_shared, wraps, wraps, wraps_relay fs e]
  | .collection es => by
    rw [relay_collection, wraps, wraps, List.map_map]
    congr 2
    exact List.map_congr_left fun e he => wraps_relay fs e
  | .arrow _ _ | .parquet _ | .store _ | .io _ | .sql _ _ | .notImplemented _ | .internal _ | .plan _
  | .configuration _ | .schema _ _ | .execution _ | .executionJoin _ | .resourcesExhausted _
  | .external _ _ | .substrait _ | .ffi _ => by
    rw [wraps_leaf _ (relay_leaf fs _ (by simp [Leaf])), wraps_leaf _ (by simp [Leaf])]
termination_by e => sizeOf e
decreasing_by all_goals first | (simp_wf; done) | (simp_wf; omega) | (have := List.sizeOf_lt_of_mem ‹_ ∈ es›; simp_wf; omega)

end DD.ErrorWire
