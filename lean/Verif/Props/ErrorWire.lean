/-
C57: an error raised on a worker arrives as the error it was.
-/
import Verif.Lemmas.ErrorWire

namespace DD.ErrorWire

/-- A consumer built with the default features. -/
def full : Features := ⟨true, true⟩

/-- An error made only of what the wire carries, wrapped in at most 47 contexts (or 95 shared errors), reaches
the consumer unchanged: same kind, same message, same contexts, same collection of errors. Partial: errors outside `Kept` are changed, as shown at the end of this file. -/
theorem C57_same_error_partial (shown : Status → String) (e : DfErr) (hk : Kept e) (hw : wraps e ≤ 95) :
    received full shown e = e := by
  have := depth_le e
  rw [received_eq _ _ _ (by omega), relay_kept full rfl e hk]

/-- A shared error from a failed task, with a context, around an I/O error and a schema error. -/
def sample : DfErr :=
  .context "while running task 3" (.shared (.collection
    [.io ⟨.timedOut, "timed out"⟩, .resourcesExhausted "out of memory",
     .schema (.fieldNotFound ⟨some (.part "s" "t"), "a", []⟩ [⟨none, "b", []⟩]) (some "at x.rs")]))

example : Kept sample ∧ wraps sample ≤ 95 := by
  constructor
  · simp [sample, Kept, IoKept, SchemaKept]
  · simp [sample, wraps]

/-- Whatever the innermost errors are, what is around them arrives: contexts with their text, collections with
all their errors in order, shared errors; only the content of diagnostics is dropped. Every innermost error
arrives as it would have arrived alone. -/
theorem C57_wrapping_kept (fs : Features) (shown : Status → String) (e : DfErr) (hw : wraps e ≤ 95) :
    received fs shown e = onLeaves (received fs shown) e := by
  have hd := depth_le e
  rw [received_eq _ _ _ (by omega), relay_onLeaves]
  exact go e
where
  go : ∀ e, onLeaves (relay fs) e = onLeaves (received fs shown) e
    | .context c e => by rw [onLeaves, onLeaves, go e]
    | .diagnostic d e => by rw [onLeaves, onLeaves, go e]
    | .shared e => by rw [onLeaves, onLeaves, go e]
    | .collection es => by
      rw [onLeaves, onLeaves]
      congr 1
      exact List.map_congr_left fun e he => go e
    | .arrow e c => leaf _ (by simp [Leaf])
    | .parquet e => leaf _ (by simp [Leaf])
    | .store e => leaf _ (by simp [Leaf])
    | .io e => leaf _ (by simp [Leaf])
    | .sql e b => leaf _ (by simp [Leaf])
    | .notImplemented _ => leaf _ (by simp [Leaf])
    | .internal _ => leaf _ (by simp [Leaf])
    | .plan _ => leaf _ (by simp [Leaf])
    | .configuration _ => leaf _ (by simp [Leaf])
    | .schema e b => leaf _ (by simp [Leaf])
    | .execution _ => leaf _ (by simp [Leaf])
    | .executionJoin _ => leaf _ (by simp [Leaf])
    | .resourcesExhausted _ => leaf _ (by simp [Leaf])
    | .external _ _ => leaf _ (by simp [Leaf])
    | .substrait _ => leaf _ (by simp [Leaf])
    | .ffi _ => leaf _ (by simp [Leaf])
  termination_by e => sizeOf e
  decreasing_by all_goals first | (simp_wf; done) | (simp_wf; omega) | (have := List.sizeOf_lt_of_mem ‹_ ∈ es›; simp_wf; omega)
  leaf (e : DfErr) (h : Leaf e) : onLeaves (relay fs) e = onLeaves (received fs shown) e := by
    have h1 := depth_le e
    rw [wraps_leaf e h] at h1
    cases e <;> first | exact h.elim | (simp only [onLeaves]; rw [received_eq _ _ _ (by omega)])

/-- The kind of the outermost error arrives, whatever it contains, unless it is a join error of the async
runtime or an FFI error. -/
theorem C57_same_kind (shown : Status → String) (e : DfErr) (hw : wraps e ≤ 95)
    (hj : ∀ m, e ≠ .executionJoin m) (hf : ∀ m, e ≠ .ffi m) : sameKind e (received full shown e) := by
  have := depth_le e
  rw [received_eq _ _ _ (by omega)]
  cases e with
  | executionJoin m => exact absurd rfl (hj m)
  | ffi m => exact absurd rfl (hf m)
  | context c e => rw [relay_context]; trivial
  | diagnostic d e => rw [relay_diagnostic]; trivial
  | shared e => rw [relay_shared]; trivial
  | collection es => rw [relay_collection]; trivial
  | parquet e => rw [relay_parquet]; trivial
  | sql e b => rw [relay_sql]; trivial
  | schema e b => rw [relay_schema]; trivial
  | store e => rw [relay_store]; trivial
  | io e => rw [relay_io]; trivial
  | _ => simp [relay, fromDf, DfProto.wire, readDf_eq, toDf, sameKind]

example : wraps (.diagnostic 7 (.executionJoin "cancelled")) ≤ 95 ∧
    ∀ m, DfErr.diagnostic 7 (.executionJoin "cancelled") ≠ .executionJoin m := ⟨by simp [wraps], by simp⟩

/-- The text of a foreign error arrives even though its type does not; the same holds for FFI errors and for
join errors, which become internal errors. -/
theorem C57_foreign_text (fs : Features) (shown : Status → String) (m : String) :
    (∀ ty, received fs shown (.external ty m) = .external .rebuilt m) ∧
    received fs shown (.ffi m) = .external .rebuilt m ∧
    received fs shown (.executionJoin m) = .internal m := by
  refine ⟨fun ty => ?_, ?_, ?_⟩ <;>
  · rw [received_eq _ _ _ (by simp [fromDf, DfProto.depth])]
    simp [relay, fromDf, DfProto.wire, readDf_eq, toDf]

/-- How the parquet crate writes its errors (`Display for ParquetError`); `none` if the wire does not know the variant. -/
def parquetText : ParquetErr → Option String
  | .general m => some ("Parquet error: " ++ m)
  | .nyi m => some ("NYI: " ++ m)
  | .eof m => some ("EOF: " ++ m)
  | .arrow m => some ("Arrow: " ++ m)
  | .indexOutOfBound a b => some ("Index " ++ toString a ++ " out of bound: " ++ toString b)
  | .external m => some ("External: " ++ m)
  | .needMoreData n => some ("NeedMoreData: " ++ toString n)
  | .unlisted _ => none

/-- How sqlparser writes its errors (`Display for ParserError`). -/
def parserText : ParserErr → String
  | .tokenizer m => "sql parser error: " ++ m
  | .parser m => "sql parser error: " ++ m
  | .recursionLimitExceeded => "sql parser error: recursion limit exceeded"

/-- A consumer built without parquet or SQL support still gets the text of every error. -/
theorem C57_missing_features (shown : Status → String) :
    (∀ e text, parquetText e = some text → received ⟨false, false⟩ shown (.parquet e) = .internal ("ParquetError from peer: " ++ text)) ∧
    ∀ e bt, received ⟨false, false⟩ shown (.sql e bt) = .internal ("SQL error from peer: " ++ parserText e ++ bt.getD "") := by
  constructor
  · intro e text h
    cases e <;> simp only [parquetText, Option.some.injEq, reduceCtorEq] at h <;> subst h <;>
    · rw [received_eq _ _ _ (by simp [fromDf, fromParquet, DfProto.depth, ParquetInner.depth]), relay_parquet]; rfl
  · intro e bt
    rw [received_eq _ _ _ (by simp [fromDf, DfProto.depth]), relay_sql]
    cases e <;> rfl

example : parquetText (.eof "footer") = some "EOF: footer" := by decide

/-- A status that no worker error produced, such as a lost connection, is reported as itself: its code and
message are kept and it is never taken for an error of the query. -/
theorem C57_transport_errors (fs : Features) (shown : Status → String) (s : Status)
    (h : s.code ≠ codeInternal ∨ s.message ≠ "DataFusionError") :
    mapFlight fs shown (.tonic s) = .external (.status s.code s.message) (shown s) := by
  rcases h with h | h <;> by_cases h1 : s.code = codeInternal <;>
    simp_all [mapFlight, mapStatus, statusToDf]

example : (⟨14, "connection refused", .garbage ""⟩ : Status).code ≠ codeInternal ∨
  (⟨14, "connection refused", .garbage ""⟩ : Status).message ≠ "DataFusionError" := .inl (by decide)

/-- Crossing further network boundaries changes nothing after the second one. -/
theorem C57_hops_stable (fs : Features) (shown : Status → String) (e : DfErr) (hw : wraps e ≤ 95) :
    received fs shown (received fs shown (received fs shown e)) = received fs shown (received fs shown e) := by
  have h1 := depth_le e
  have h2 := depth_le (relay fs e)
  have h3 := depth_le (relay fs (relay fs e))
  rw [wraps_relay] at h2 h3
  rw [wraps_relay] at h3
  rw [received_eq fs shown e (by omega), received_eq fs shown (relay fs e) (by omega),
    received_eq fs shown (relay fs (relay fs e)) (by omega)]
  exact go e
where
  go : ∀ e, relay fs (relay fs (relay fs e)) = relay fs (relay fs e)
    | .context c e => by simp only [relay_context, go e]
    | .diagnostic d e => by simp only [relay_diagnostic, go e]
    | .shared e => by simp only [relay_shared, go e]
    | .collection es => by
      simp only [relay_collection, List.map_map]
      congr 1
      exact List.map_congr_left fun e he => go e
    | .arrow e c => by
      by_cases h : ∃ m, e = .avro m
      · obtain ⟨m, rfl⟩ := h
        rw [relay_avro, relay_arrow _ _ _ (by simp [ArrowKept]), relay_arrow _ _ _ (by simp [ArrowKept])]
      · by_cases h2 : ∃ m x n, e = .io m ⟨.unlisted n, x⟩
        · obtain ⟨m, x, n, rfl⟩ := h2
          have : relay fs (.arrow (.io m ⟨.unlisted n, x⟩) c) = .arrow (.io m ⟨.other, x⟩) c := by
            simp only [relay, fromDf, DfProto.wire, readDf_eq, toDf, ne_eq, reduceCtorEq, not_false_eq_true]
            rfl
          have hk : ArrowKept (.io m ⟨.other, x⟩) := by intro n; simp
          rw [this, relay_arrow _ _ _ hk, relay_arrow _ _ _ hk]
        · have hk : ArrowKept e := by
            cases e <;> simp_all [ArrowKept, IoKept]
            rename_i m x; intro n hn; exact h2 x.text n (by cases x; simp_all)
          rw [relay_arrow _ _ _ hk, relay_arrow _ _ _ hk, relay_arrow _ _ _ hk]
    | .parquet e => by
      rw [relay_parquet]
      split
      · rename_i h
        simp only [relay_parquet, h, if_true]
        cases e <;> rfl
      · simp [relay, fromDf, DfProto.wire, readDf_eq, toDf]
    | .store e => by
      simp only [relay_store]
      congr 1
      have hp : ∀ s, parseStore (parseStore s) = parseStore s := fun s => parseStore_kept _ (parseStore_mem s)
      cases e <;> first | rfl | simp [fromStore, toStore, hp]
    | .io e => by
      rw [relay_io]
      obtain ⟨k, x⟩ := e
      cases k <;> (rw [relay_io, relay_io]; rfl)
    | .sql e b => by
      rw [relay_sql]
      split
      · rename_i h
        simp only [relay_sql, h, if_true]
      · simp [relay, fromDf, DfProto.wire, readDf_eq, toDf]
    | .schema e b => by
      rw [relay_schema, relay_schema, relay_schema]
      congr 1
      cases e <;> simp [toSchema, fromSchema, toColumn_from, toTableRef_from, Function.comp_def]
    | .notImplemented _ | .internal _ | .plan _
    | .configuration _ | .execution _ | .executionJoin _ | .resourcesExhausted _
    | .external _ _ | .substrait _ | .ffi _ => by simp [relay, fromDf, DfProto.wire, readDf_eq, toDf]
  termination_by e => sizeOf e
  decreasing_by all_goals first | (simp_wf; done) | (simp_wf; omega) | (have := List.sizeOf_lt_of_mem ‹_ ∈ es›; simp_wf; omega)

example : wraps (.context "scan" (.store (.invalidPath "a//b"))) ≤ 95 := by simp [wraps]

/-! ## Where the claim fails -/

/-- Every Avro error loses its text and its context: the tag of the variant is missing from the list of tags
of the message, so the consumer reads an empty message. -/
theorem C57_avro_lost (shown : Status → String) (m : String) (ctx : Option String) :
    received full shown (.arrow (.avro m) ctx) = .arrow (.external "Malformed protobuf message") none := by
  rw [received_eq _ _ _ (by simp [fromDf, fromArrow, DfProto.depth, ArrowInner.depth]), relay_avro]

/-- `n` contexts around an error. -/
def inContexts : Nat → DfErr → DfErr
  | 0, e => e
  | n + 1, e => .context "ctx" (inContexts n e)

theorem depth_inContexts (n : Nat) (e : DfErr) : (fromDf (inContexts n e)).depth = (fromDf e).depth + 2 * n := by
  induction n with
  | zero => rfl
  | succ n ih => simp only [inContexts, fromDf, DfProto.depth, ih]; omega

/-- An error with more than fifty contexts arrives as an internal error about decoding, its text is lost. -/
theorem C57_deep_lost (shown : Status → String) (e : DfErr) (n : Nat) (h : 50 < n) :
    received full shown (inContexts n e) = .internal
      "Cannot decode DataFusionError: failed to decode Protobuf message: recursion limit reached" :=
  received_deep _ _ _ (by rw [depth_inContexts]; omega)

/-- `n` shares around an error. -/
def inShares : Nat → DfErr → DfErr
  | 0, e => e
  | n + 1, e => .shared (inShares n e)

theorem depth_inShares (n : Nat) (e : DfErr) : (fromDf (inShares n e)).depth = (fromDf e).depth + n := by
  induction n with
  | zero => rfl
  | succ n ih => simp only [inShares, fromDf, DfProto.depth, ih]; omega

/-- The levels an Arrow error takes by itself: two for the kinds whose payload is declared as a message of its own
(arrow_error.rs:41-50), one for the others. -/
def arrowLevels : ArrowErr → Nat
  | .io _ _ => 2
  | .ipc _ => 2
  | .invalidArgument _ => 2
  | .parquet _ => 2
  | .cData _ => 2
  | _ => 1

/-- The levels an innermost error takes by itself, except for schema errors: none when its text is a field of the outer
message, one for the message of its kind, two when the payload of the kind is a message again (parquet_error.rs:13-27,
objectstore_error.rs, parser_error.rs). -/
def ownLevels : DfErr → Option Nat
  | .arrow a _ => some (arrowLevels a)
  | .parquet (.needMoreData _) => some 1
  | .parquet _ => some 2
  | .store _ => some 2
  | .io _ => some 1
  | .sql _ _ => some 2
  | .schema _ _ | .context _ _ | .diagnostic _ _ | .collection _ | .shared _ => none
  | _ => some 0

/-- **C57.** The exact nesting up to which an error arrives: a context counts twice, a share once, the innermost error
as many levels as its kind takes. Up to a hundred in all it is converted as any other error, above that its text is lost. -/
theorem C57_exact_nesting (shown : Status → String) (e : DfErr) (k n s : Nat) (hk : ownLevels e = some k) :
    (2 * n + s + k ≤ 100 →
      received full shown (inShares s (inContexts n e)) = relay full (inShares s (inContexts n e))) ∧
    (100 < 2 * n + s + k →
      received full shown (inShares s (inContexts n e)) = .internal
        "Cannot decode DataFusionError: failed to decode Protobuf message: recursion limit reached") := by
  have he : (fromDf e).depth = k := by
    cases e with
    | arrow a c =>
      simp only [ownLevels, Option.some.injEq] at hk
      subst hk
      cases a <;> simp only [fromDf, fromArrow, DfProto.depth, ArrowInner.depth, arrowLevels]
    | parquet a =>
      cases a <;> simp only [ownLevels, Option.some.injEq] at hk <;> subst hk <;>
        simp only [fromDf, fromParquet, DfProto.depth, ParquetInner.depth]
    | store a =>
      simp only [ownLevels, Option.some.injEq] at hk
      subst hk
      cases a <;> simp only [fromDf, fromStore, DfProto.depth]
    | _ => simp_all [ownLevels, fromDf, DfProto.depth]
  have hd : (fromDf (inShares s (inContexts n e))).depth = 2 * n + s + k := by
    rw [depth_inShares, depth_inContexts, he]; omega
  exact ⟨fun h => received_eq _ _ _ (by omega), fun h => received_deep _ _ _ (by omega)⟩

example : ownLevels (.arrow (.parquet "EOF") none) = some 2 ∧ 2 * 49 + 0 + 2 ≤ 100 ∧ 100 < 2 * 49 + 1 + 2 := by
  simp [ownLevels, arrowLevels]

/-- Invalid paths and join errors of an object store change kind, an unimplemented operation loses its name,
store names outside a fixed list become "Unknown", and I/O kinds outside a fixed list become "other". -/
theorem C57_store_lost (shown : Status → String) (m o i : String) (n : Nat) :
    received full shown (.store (.invalidPath m)) = .store (.generic "unknown" ("InvalidPath: " ++ m)) ∧
    received full shown (.store (.join m)) = .store (.generic "unknown" ("JoinError: " ++ m)) ∧
    received full shown (.store (.notImplemented o i)) =
      .store (.notImplemented "unknown_operation" "unknown_implementer") ∧
    received full shown (.store (.generic "HDFS" m)) = .store (.generic "Unknown" m) ∧
    received full shown (.io ⟨.unlisted n, m⟩) = .io ⟨.other, m⟩ := by
  refine ⟨?_, ?_, ?_, ?_, ?_⟩
  iterate 4
    · rw [received_eq _ _ _ (by simp [fromDf, fromStore, DfProto.depth]), relay_store]; rfl
  · rw [received_eq _ _ _ (by simp [fromDf, DfProto.depth]), relay_io]; rfl

/-- One hop more can still change an error: the store name changes case. -/
theorem C57_second_hop_differs (shown : Status → String) :
    received full shown (received full shown (.store (.invalidPath "p"))) ≠
      received full shown (.store (.invalidPath "p")) := by
  have h1 := (C57_store_lost shown "p" "" "" 0).1
  rw [h1, received_eq _ _ _ (by simp [fromDf, fromStore, DfProto.depth]), relay_store]
  intro h
  have : parseStore "unknown" = "unknown" := by
    simpa [fromStore, toStore] using h
  revert this; decide

/-- **C57.** The numbers under which the variants of the errors are sent tell them apart: two values are sent under the same number
only if they are the same variant, in every message that carries one of several. -/
theorem C57_variants_told_apart :
    (∀ x y : ArrowInner, x.tag = y.tag → x.ctorIdx = y.ctorIdx) ∧ (∀ x y : ParquetInner, x.tag = y.tag → x.ctorIdx = y.ctorIdx)
    ∧ (∀ x y : StoreInner, x.tag = y.tag → x.ctorIdx = y.ctorIdx) ∧ (∀ x y : ParserInner, x.tag = y.tag → x.ctorIdx = y.ctorIdx)
    ∧ (∀ x y : TableRefInner, x.tag = y.tag → x.ctorIdx = y.ctorIdx) ∧ (∀ x y : SchemaInner, x.tag = y.tag → x.ctorIdx = y.ctorIdx)
    ∧ ∀ x y : DfProto, x.tag = y.tag → x.ctorIdx = y.ctorIdx := by
  refine ⟨?_, ?_, ?_, ?_, ?_, ?_, ?_⟩
  · intro x y h
    cases x <;> simp only [ArrowInner.tag] at h <;> cases y <;> first | rfl | (simp only [ArrowInner.tag] at h; omega)
  · intro x y h
    cases x <;> simp only [ParquetInner.tag] at h <;> cases y <;> first | rfl | (simp only [ParquetInner.tag] at h; omega)
  · intro x y h
    cases x <;> simp only [StoreInner.tag] at h <;> cases y <;> first | rfl | (simp only [StoreInner.tag] at h; omega)
  · intro x y h
    cases x <;> simp only [ParserInner.tag] at h <;> cases y <;> first | rfl | (simp only [ParserInner.tag] at h; omega)
  · intro x y h
    cases x <;> simp only [TableRefInner.tag] at h <;> cases y <;> first | rfl | (simp only [TableRefInner.tag] at h; omega)
  · intro x y h
    cases x <;> simp only [SchemaInner.tag] at h <;> cases y <;> first | rfl | (simp only [SchemaInner.tag] at h; omega)
  · intro x y h
    cases x <;> simp only [DfProto.tag] at h <;> cases y <;> first | rfl | (simp only [DfProto.tag] at h; omega)

end DD.ErrorWire
