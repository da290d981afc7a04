/-
`EXPLAIN ANALYZE` of statements that write (C94 with C83).
-/
import Verif.Props.Sink
import Verif.Props.Analyze

namespace DD.Tree

open DD.Tree.Create DD.Analyze

variable {Row : Type} {env : Env Row}

theorem hasNet_writing {g : Op Row} {c : Plan Row} (h : hasNet c = false) : hasNet (writing g c) = false := by
  simp [writing, fresh, hasNet, hasNetAny, h, Kind.isNet]

/-- **C94** `EXPLAIN ANALYZE` of a statement that writes runs the plan of the statement itself. If that is distributed, only the
coordinator writes, and it writes the rows of one of the answers of the query. Missing: as in `C94_written_rows_partial`, and task
counts chosen while the statement runs. -/
theorem C94_explain_analyze_partial {S : Op Row → Prop} (hs : ScalesFree S env) (he : EnvOk env) (hr : CoordinatorReads env) {g : Op Row}
    (hw : Writes g) {c : Plan Row} (hc : Free S c) (hn : hasNet c = false) (ht : Top env .pre c .perm)
    (hh : ∀ c1, normalize env c = .ok c1 → HeadOk c1) {fuel : Nat} {q : Phys Row}
    (h : create env false fuel (.analyze (.plan (writing g c))) = .ok q) :
    (q = .analyze (.plan (writing g c)) ∧ create env false fuel (.plan (writing g c)) = .ok (.plan (writing g c))) ∨
    ∃ tc c', q = .distAnalyze (.distributed (.plan (.node (.op g none) tc [c'])))
      ∧ create env false fuel (.plan (writing g c)) = .ok (.distributed (.plan (.node (.op g none) tc [c'])))
      ∧ (∀ T t x, At T c' t x → ∀ g' red, x.kind = .op g' red → ¬ S g')
      ∧ ∃ d, Answer c d ∧ (written (.node (.op g none) tc [c'])).Perm d := by
  rcases C83_runs_the_query (hasNet_writing hn) h with h | ⟨p', e1, e2, h3⟩
  · exact .inl h
  · obtain ⟨tc, c', rfl, hx⟩ := C94_only_the_coordinator_writes hs hc (fun c1 h => (ht.normalize he c1 h).1.parts) h3
    exact .inr ⟨tc, c', e1, e2, hx, C94_written_rows_partial he hr hw ht hh h3⟩

/-- Non-vacuity: the statement of `Props/Sink` is distributed below `EXPLAIN ANALYZE`, too. -/
example : ∃ tc c', create Demo.sess false 9 (.analyze (.plan (writing Demo.sinkOp Demo.rowsToWrite))) =
      .ok (.distAnalyze (.distributed (.plan (.node (.op Demo.sinkOp none) tc [c']))))
    ∧ (∀ T t x, At T c' t x → ∀ g' red, x.kind = .op g' red → ¬ Demo.AsksOrder g')
    ∧ ∃ d, Answer Demo.rowsToWrite d ∧ (written (.node (.op Demo.sinkOp none) tc [c'])).Perm d := by
  have h : (match create Demo.sess false 9 (.analyze (.plan (writing Demo.sinkOp Demo.rowsToWrite))) with
      | .ok (.distAnalyze _) => true | _ => false) = true := by decide +kernel
  split at h
  · rename_i q hq
    rcases C94_explain_analyze_partial Demo.sess_scalesFree Demo.sess_ok Demo.sess_reads Demo.sinkOp_writes Demo.rowsToWrite_free rfl
      Demo.rowsToWrite_top (fun c1 h => by rw [Demo.rowsToWrite_norm] at h; cases h; exact .ends rfl (fun h => by cases h)) hq with
      ⟨e, -⟩ | ⟨tc, c', e, -, h1, h2⟩
    · cases e
    · exact ⟨tc, c', by rw [← e]; exact hq, h1, h2⟩
  · cases h

end DD.Tree
