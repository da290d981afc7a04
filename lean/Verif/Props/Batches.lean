/-
**C84**: record batches survive the wire.
-/
import Verif.Spec.Batches
import Verif.Props.EndToEnd

namespace DD.Batches

variable {Sch : Type}

/-! ### Garbage collection -/

theorem gc_rank (used : Nat → Bool) : ∀ (vs : Dict) (n k : Nat), k < vs.length → used (n + k) = true →
    (((vs.zipIdx n).filter fun v => used v.2).map (·.1)).getD (((List.range' n k).filter used).length) none = vs.getD k none
  | [], _, _, h, _ => by simp at h
  | v :: vs, n, 0, _, hu => by
    simp only [Nat.add_zero] at hu
    simp [List.zipIdx_cons, List.filter_cons, hu]
  | v :: vs, n, k + 1, h, hu => by
    have ih := gc_rank used vs (n + 1) k (by simpa using h) (by rw [← hu]; congr 1; omega)
    rw [List.zipIdx_cons, List.range'_succ, List.filter_cons, List.filter_cons]
    cases hn : used n with
    | true =>
      simp only [if_true, List.map_cons, List.length_cons, List.getD_cons_succ]
      exact ih
    | false =>
      simp only [Bool.false_eq_true, if_false, List.getD_cons_succ]
      exact ih

theorem gcDict_values {keys : List (Option Nat)} {values : Dict} (h : ∀ k, some k ∈ keys → k < values.length) :
    (Col.dict (gcDict keys values).1 (gcDict keys values).2).values = (Col.dict keys values).values := by
  simp only [Col.values, gcDict, List.map_map]
  apply List.map_congr_left
  intro k hk
  cases k with
  | none => rfl
  | some k =>
    have := gc_rank (fun i => keys.contains (some i)) values 0 k (h k hk) (by simpa using hk)
    simp only [← List.range_eq_range'] at this
    simp only [Function.comp, Option.map_some]
    rw [this]

theorem gcView_spec (bufs : List Atom) : ∀ (slots : List (Option Slot)) (acc : Atom),
    (∀ i o l, some (.ref i o l) ∈ slots → o + l ≤ (bufs.getD i []).length) →
    acc <+: (gcView bufs slots acc).2 ∧ ∀ rest : Atom,
      (gcView bufs slots acc).1.map (Option.map (Slot.read [(gcView bufs slots acc).2 ++ rest])) = slots.map (Option.map (Slot.read bufs))
  | [], acc, _ => ⟨List.prefix_refl _, fun _ => rfl⟩
  | none :: slots, acc, h => by
    obtain ⟨h1, h2⟩ := gcView_spec bufs slots acc (fun i o l hm => h i o l (by simp [hm]))
    exact ⟨h1, fun rest => by simp only [gcView, List.map_cons, h2 rest, Option.map_none]⟩
  | some (.inline b) :: slots, acc, h => by
    obtain ⟨h1, h2⟩ := gcView_spec bufs slots acc (fun i o l hm => h i o l (by simp [hm]))
    exact ⟨h1, fun rest => by simp only [gcView, List.map_cons, h2 rest, Option.map_some, Slot.read]⟩
  | some (.ref i o l) :: slots, acc, h => by
    obtain ⟨h1, h2⟩ := gcView_spec bufs slots (acc ++ Slot.read bufs (.ref i o l)) (fun i o l hm => h i o l (by simp [hm]))
    have hb := h i o l (by simp)
    have hlen : (Slot.read bufs (.ref i o l)).length = l := by
      simp only [Slot.read, List.length_take, List.length_drop]; omega
    refine ⟨(List.prefix_append _ _).trans h1, fun rest => ?_⟩
    obtain ⟨t, ht⟩ := h1
    simp only [gcView, List.map_cons, h2 rest, Option.map_some, List.cons.injEq, Option.some.injEq, and_true]
    rw [← ht]
    generalize hr : Slot.read bufs (.ref i o l) = r at hlen ⊢
    simp only [Slot.read, List.getD_cons_zero, List.append_assoc, List.drop_left]
    rw [← hlen, List.take_left]

theorem gcCol_values {c : Col} (h : c.Valid) : (gcCol c).values = c.values := by
  cases c with
  | plain _ => rfl
  | struct _ _ => rfl
  | list _ _ => rfl
  | union _ _ => rfl
  | dict keys values => exact gcDict_values h
  | view slots bufs =>
    have h1 := (gcView_spec bufs slots [] h).2 []
    have key : ∀ (bufs : List Atom) (slots : List (Option Slot)), (Col.view slots bufs).values
        = (slots.map (Option.map (Slot.read bufs))).map .atom := by
      intro bufs slots
      simp [Col.values]
    rw [gcCol, key, key, ← h1, List.append_nil]

/-- **C84** (before sending) Leaving out what no row refers to changes no value. -/
theorem C84_garbage_collection {b : Batch} (h : b.Valid) : Same (garbageCollect b) b := by
  refine ⟨rfl, ?_⟩
  simp only [garbageCollect, List.map_map]
  exact List.map_congr_left fun c hc => gcCol_values (h c hc)

/-! ### Encoding and decoding -/

mutual
theorem read_body (k : Known) : ∀ (c : Col) (i : Nat), (∀ j d, c.dicts[j]? = some d → k (i + j) = some d) →
    c.body.read k i = some (c, i + c.dicts.length)
  | .plain _, i, _ => by simp [Col.body, Body.read, Col.dicts]
  | .dict keys values, i, h => by
    have := h 0 values (by simp [Col.dicts])
    simp only [Nat.add_zero] at this
    simp [Col.body, Body.read, Col.dicts, this]
  | .view _ _, i, _ => by simp [Col.body, Body.read, Col.dicts]
  | .struct rows fields, i, h => by
    simp only [Col.dicts] at h
    rw [Col.body, Body.read, readAll_body k fields i h]
    simp [Col.dicts]
  | .list ranges elements, i, h => by
    simp only [Col.dicts] at h
    rw [Col.body, Body.read, read_body k elements i h]
    simp [Col.dicts]
  | .union rows types, i, h => by
    simp only [Col.dicts] at h
    rw [Col.body, Body.read, readAll_body k types i h]
    simp [Col.dicts]
theorem readAll_body (k : Known) : ∀ (cs : List Col) (i : Nat), (∀ j d, (dictsAll cs)[j]? = some d → k (i + j) = some d) →
    readAll k (bodyAll cs) i = some (cs, i + (dictsAll cs).length)
  | [], i, _ => by simp [bodyAll, readAll, dictsAll]
  | c :: cs, i, h => by
    simp only [dictsAll] at h
    have h1 := read_body k c i (fun j d hj => h j d (by
      rw [List.getElem?_append_left (List.getElem?_eq_some_iff.1 hj).1]; exact hj))
    have h2 := readAll_body k cs (i + c.dicts.length) (fun j d hj => by
      have := h (c.dicts.length + j) d (by rw [List.getElem?_append_right (by omega)]; simpa using hj)
      rw [← this]; congr 1; omega)
    simp [bodyAll, readAll, h1, h2, dictsAll, Nat.add_assoc]
end

theorem sendDicts_low : ∀ (ds : List Dict) (k : Known) (i j : Nat), j < i → (sendDicts k ds i).1 j = k j
  | [], _, _, _, _ => rfl
  | d :: ds, k, i, j, h => by
    unfold sendDicts
    split
    · exact sendDicts_low ds k (i + 1) j (by omega)
    · rw [sendDicts_low ds _ (i + 1) j (by omega)]
      simp only [Known.set]
      rw [if_neg (by omega)]

theorem sendDicts_known : ∀ (ds : List Dict) (k : Known) (i j : Nat) (d : Dict), ds[j]? = some d →
    (sendDicts k ds i).1 (i + j) = some d
  | [], _, _, _, _, h => by simp at h
  | d :: ds, k, i, 0, d', h => by
    simp only [List.getElem?_cons_zero, Option.some.injEq] at h
    subst h
    unfold sendDicts
    split
    · rename_i hk
      exact (sendDicts_low ds k (i + 1) i (by omega)).trans hk
    · exact (sendDicts_low ds _ (i + 1) i (by omega)).trans (by simp [Known.set])
  | d :: ds, k, i, j + 1, d', h => by
    simp only [List.getElem?_cons_succ] at h
    unfold sendDicts
    split
    · rw [show i + (j + 1) = i + 1 + j by omega]; exact sendDicts_known ds k (i + 1) j d' h
    · rw [show i + (j + 1) = i + 1 + j by omega]; exact sendDicts_known ds _ (i + 1) j d' h

theorem decode_dicts {s : Sch} {rest : List (Except Err (Msg Sch))} : ∀ (ds : List Dict) (k : Known) (i : Nat),
    decode ⟨some s, k⟩ (((sendDicts k ds i).2.map fun m => Except.ok (Msg.dictionary m.1 m.2)) ++ rest)
      = decode ⟨some s, (sendDicts k ds i).1⟩ rest
  | [], _, _ => rfl
  | d :: ds, k, i => by
    unfold sendDicts
    split
    · exact decode_dicts ds k (i + 1)
    · simp only [List.map_cons, List.cons_append, decode]
      exact decode_dicts ds (k.set i d) (i + 1)

theorem decode_batch_msg {s : Sch} {k : Known} {rows i : Nat} {bodies : List Body} {cs : List Col}
    {rest : List (Except Err (Msg Sch))} (h : readAll k bodies 0 = some (cs, i)) :
    decode ⟨some s, k⟩ (.ok (.batch rows bodies) :: rest) = .ok (s, ⟨rows, cs⟩) :: decode ⟨some s, k⟩ rest := by
  conv => lhs; unfold decode
  simp only [h]

theorem decode_schema_msg (s : Sch) (rest : List (Except Err (Msg Sch))) :
    decode {} (.ok (.schema s) :: rest) = decode ⟨some s, fun _ => none⟩ rest := by
  conv => lhs; unfold decode

/-- A reader whose dictionaries are the ones sent last reads the next batch. -/
theorem decode_batch {s : Sch} (k : Known) (b : Batch) (rest : List (Except Err (Msg Sch))) :
    decode ⟨some s, k⟩ ((encodeBatch k b).2.map .ok ++ rest)
      = (if b.rows = 0 then [] else [.ok (s, b)]) ++ decode ⟨some s, (encodeBatch (Sch := Sch) k b).1⟩ rest := by
  unfold encodeBatch
  split
  · rfl
  · simp only [List.map_append, List.map_map, List.map_cons, List.map_nil, List.append_assoc]
    have := decode_dicts (s := s) (rest := [Except.ok (Msg.batch b.rows (bodyAll b.cols))] ++ rest) (dictsAll b.cols) k 0
    simp only [Function.comp_def] at this ⊢
    rw [this, List.singleton_append]
    have h := readAll_body (sendDicts k (dictsAll b.cols) 0).1 b.cols 0 (fun j d hj => sendDicts_known _ k 0 j d hj)
    rw [decode_batch_msg h]
    rfl

theorem decode_encodeFrom (s : Sch) : ∀ (bs : List (Except Err Batch)) (k : Known),
    decode ⟨some s, k⟩ (encodeFrom k bs) = ((visible bs).map fun b => .ok (s, garbageCollect b)) ++ ((failure bs).map .error).toList
  | [], _ => rfl
  | .error e :: bs, _ => rfl
  | .ok b :: bs, k => by
    rw [encodeFrom, decode_batch, decode_encodeFrom s bs]
    have : (garbageCollect b).rows = b.rows := rfl
    rw [this, visible, failure]
    split <;> simp

theorem decode_encode (m : Option Nat) (s : Sch) (bs : List (Except Err Batch)) :
    decode {} (encode m s bs) = ((visible bs).map fun b => .ok (s, garbageCollect b)) ++ ((failure bs).map .error).toList := by
  unfold encode
  rw [decode_schema_msg]
  exact decode_encodeFrom s bs _

theorem visible_valid : ∀ {bs : List (Except Err Batch)}, (∀ b, .ok b ∈ bs → b.Valid) → ∀ b ∈ visible bs, b.Valid
  | [], _, _, hb => by cases hb
  | .error _ :: _, _, _, hb => by cases hb
  | .ok b' :: bs, h, b, hb => by
    rw [visible] at hb
    have ih := visible_valid (bs := bs) fun b hb => h b (by simp [hb])
    split at hb
    · exact ih b hb
    · rcases List.mem_cons.1 hb with rfl | hb
      · exact h _ (by simp)
      · exact ih b hb

theorem allSame_gc {bs : List Batch} (h : ∀ b ∈ bs, b.Valid) : AllSame (bs.map garbageCollect) bs := by
  induction bs with
  | nil => exact .nil
  | cons b bs ih => exact .cons (C84_garbage_collection (h b (by simp))) (ih fun b hb => h b (by simp [hb]))

/-- **C84** (one partition) Whatever batches a partition produces: the consumer gets its schema and, in order, the same batches,
and then the error the partition failed with, if it did. Batches without rows are left out. -/
theorem C84_batches_arrive (m : Option Nat) (s : Sch) (bs : List (Except Err Batch)) (h : ∀ b, .ok b ∈ bs → b.Valid) :
    ∃ out : List Batch, decode {} (encode m s bs) = (out.map fun b => .ok (s, b)) ++ ((failure bs).map .error).toList
      ∧ AllSame out (visible bs) :=
  ⟨(visible bs).map garbageCollect, by rw [decode_encode, List.map_map]; rfl, allSame_gc (visible_valid h)⟩

theorem rowAll_congr {i : Nat} : ∀ {cs cs' : List Col}, cs'.map Col.values = cs.map Col.values → rowAll i cs' = rowAll i cs
  | [], [], _ => rfl
  | [], _ :: _, h => by cases h
  | _ :: _, [], h => by cases h
  | c :: cs, c' :: cs', h => by
    simp only [List.map_cons, List.cons.injEq] at h
    simp only [rowAll, h.1, rowAll_congr h.2]

theorem Same.values {b' b : Batch} (h : Same b' b) : b'.values = b.values := by
  unfold Batch.values
  rw [h.1]
  exact List.map_congr_left fun i _ => rowAll_congr h.2

theorem rowsOf_visible : ∀ bs : List (Except Err Batch), rowsOf bs = (visible bs).flatMap Batch.values
  | [] => rfl
  | .error _ :: _ => rfl
  | .ok b :: bs => by
    rw [rowsOf, visible, rowsOf_visible bs]
    split
    · rename_i h
      simp [Batch.values, h]
    · simp

theorem AllSame.rows {bs' bs : List Batch} (h : AllSame bs' bs) : bs'.flatMap Batch.values = bs.flatMap Batch.values := by
  induction h with
  | nil => rfl
  | cons h _ ih => simp only [List.flatMap_cons, h.values, ih]

theorem toOption_ok {α : Type} (a : α) (l : List (Except Err α)) :
    (Except.ok a :: l).filterMap Except.toOption = a :: l.filterMap Except.toOption := rfl

theorem toOption_error {α : Type} (e : Err) (l : List (Except Err α)) :
    (Except.error e :: l).filterMap Except.toOption = l.filterMap Except.toOption := rfl

theorem toOption_oks {α : Type} (l : List α) : (l.map Except.ok).filterMap (Except.toOption (ε := Err)) = l := by
  induction l with
  | nil => rfl
  | cons a l ih => rw [List.map_cons, toOption_ok, ih]

/-- The batches among the items of a stream. -/
def batchesOf (out : List (Except Err (Sch × Batch))) : List Batch := (out.filterMap Except.toOption).map (·.2)

theorem batchesOf_ok (s : Sch) (out : List Batch) (e : Option Err) :
    batchesOf ((out.map fun b => .ok (s, b)) ++ (e.map .error).toList) = out := by
  unfold batchesOf
  induction out with
  | nil => cases e <;> rfl
  | cons b out ih =>
    rw [List.map_cons, List.cons_append, toOption_ok, List.map_cons, ih]

/-- **C84** (rows) The rows a consumer gets are the rows of the partition, in order. -/
theorem C84_rows_arrive (m : Option Nat) (s : Sch) (bs : List (Except Err Batch)) (h : ∀ b, .ok b ∈ bs → b.Valid) :
    (batchesOf (decode {} (encode m s bs))).flatMap Batch.values = rowsOf bs := by
  obtain ⟨out, e, hs⟩ := C84_batches_arrive m s bs h
  rw [e, batchesOf_ok, hs.rows, rowsOf_visible]

/-! ### A connection that carries several partitions -/

theorem decode_prefix : ∀ {ms ms' : List (Except Err (Msg Sch))} (st : Decoder Sch), ms <+: ms' → decode st ms <+: decode st ms'
  | [], _, _, _ => List.nil_prefix
  | .error e :: ms, ms', st, h => by
    obtain ⟨t, rfl⟩ := h
    exact List.prefix_refl _
  | .ok m :: ms, ms', st, h => by
    obtain ⟨t, rfl⟩ := h
    have ih := fun st => decode_prefix (ms := ms) (ms' := ms ++ t) st (List.prefix_append _ _)
    simp only [List.cons_append]
    unfold decode
    split <;> first | exact ih _ | exact List.prefix_refl _ | skip
    split
    · exact List.prefix_refl _
    · exact (List.prefix_cons_inj _).2 (ih st)

theorem decode_oks : ∀ (ms : List (Except Err (Msg Sch))) (st : Decoder Sch),
    (decode st ms).filterMap Except.toOption
      <+: (decode st ((ms.filterMap Except.toOption).map .ok)).filterMap Except.toOption
  | [], _ => List.prefix_refl _
  | .error e :: ms, st => by
    rw [decode]
    exact List.nil_prefix
  | .ok m :: ms, st => by
    have ih := decode_oks ms
    rw [toOption_ok, List.map_cons]
    unfold decode
    split <;> first | exact ih _ | exact List.prefix_refl _ | skip
    split
    · exact List.prefix_refl _
    · rw [toOption_ok, toOption_ok]
      exact (List.prefix_cons_inj _).2 (ih st)

theorem encodeFrom_oks (s : Sch) : ∀ (bs : List (Except Err Batch)) (k : Known),
    decode ⟨some s, k⟩ (((encodeFrom k bs).filterMap Except.toOption).map .ok)
      = (visible bs).map fun b => .ok (s, garbageCollect b)
  | [], _ => rfl
  | .error e :: bs, _ => rfl
  | .ok b :: bs, k => by
    rw [encodeFrom, List.filterMap_append, toOption_oks, List.map_append, decode_batch, encodeFrom_oks s bs]
    have : (garbageCollect b).rows = b.rows := rfl
    rw [this, visible]
    split <;> simp

/-- **C84** (several partitions on a connection, at any time) `n` partitions of a task share a connection. In whatever order the
worker forwards their messages and the consumer's tasks read them, wherever the connection breaks and whatever panics: what has arrived
of a partition are its first batches, with its own dictionaries. -/
theorem C84_at_any_time (n cap : Nat) (m : Option Nat) (schema : Nat → Sch) (parts : Nat → List (Except Err Batch))
    (hv : ∀ i b, .ok b ∈ parts i → b.Valid) (size : Msg Sch → Nat)
    (ssteps : List SelectAll.Step) (c : Demux.Cfg (Msg Sch))
    (hrecv : SelectAll.Received size c.start (SelectAll.run n cap (fun i => encode m (schema i) (parts i)) ssteps) c.sent)
    (csteps : List Demux.Step) (i : Nat) (hi : i < n) :
    ∃ k, AllSame (batchesOf (decode {} ((Demux.run c (Demux.init c) csteps).chans i).out)) ((visible (parts i)).take k) := by
  have h := SelectAll.C29_end_to_end_prefix n cap _ size ssteps c hrecv csteps i hi
  generalize ((Demux.run c (Demux.init c) csteps).chans i).out = out at h
  have h1 := decode_oks out {}
  have h2 : (decode {} ((out.filterMap Except.toOption).map Except.ok)) <+:
      (visible (parts i)).map fun b => Except.ok (ε := Err) (schema i, garbageCollect b) := by
    refine (decode_prefix {} (List.IsPrefix.map Except.ok h)).trans ?_
    have e : (encode m (schema i) (parts i)).filterMap Except.toOption
        = Msg.schema (schema i) :: (encodeFrom (fun _ => none) (parts i)).filterMap Except.toOption := rfl
    rw [e, List.map_cons, decode_schema_msg, encodeFrom_oks]
    exact List.prefix_refl _
  have h3 := h1.trans (h2.filterMap Except.toOption)
  have h4 : (batchesOf (decode {} out)) <+: (visible (parts i)).map garbageCollect := by
    unfold batchesOf
    have := h3.map (·.2)
    refine this.trans ?_
    have e : ∀ l : List Batch, ((l.map fun b => Except.ok (ε := Err) (schema i, garbageCollect b)).filterMap Except.toOption).map (·.2)
        = l.map garbageCollect := by
      intro l; induction l with
      | nil => rfl
      | cons a l ih => rw [List.map_cons, toOption_ok, List.map_cons, ih, List.map_cons]
    rw [e]
    exact List.prefix_refl _
  rw [List.prefix_iff_eq_take] at h4
  refine ⟨(batchesOf (decode {} out)).length, ?_⟩
  rw [h4, List.length_take, List.length_map, ← List.map_take]
  have hm : min (min (batchesOf (decode {} out)).length (visible (parts i)).length) (visible (parts i)).length
      = min (batchesOf (decode {} out)).length (visible (parts i)).length := by omega
  have ht : (visible (parts i)).take (min (batchesOf (decode {} out)).length (visible (parts i)).length)
      = (visible (parts i)).take (batchesOf (decode {} out)).length := by
    rw [List.take_eq_take_iff]; omega
  rw [ht]
  exact allSame_gc fun b hb => visible_valid (hv i) b (List.mem_of_mem_take hb)

theorem no_error_of_decode : ∀ {ms : List (Except Err (Msg Sch))} {st : Decoder Sch}, (∀ e, Except.error e ∉ decode st ms) →
    ∀ e, Except.error e ∉ ms
  | [], _, _, _ => by simp
  | .error e :: ms, st, h, _ => absurd (by unfold decode; simp) (h e)
  | .ok m :: ms, st, h, e => by
    have ih := fun (st : Decoder Sch) h => no_error_of_decode (ms := ms) (st := st) h e
    unfold decode at h
    simp only [List.mem_cons, reduceCtorEq, false_or]
    split at h <;> first | exact ih _ h | exact absurd (List.mem_singleton.2 rfl) (h _) | skip
    split at h
    · exact absurd (List.mem_singleton.2 rfl) (h _)
    · exact ih _ fun e he => h e (List.mem_cons_of_mem _ he)

/-- **C84** (several partitions on a connection, at the end) A consumer that has seen the end of its stream, and no error, has
all batches and all rows of its partition. -/
theorem C84_complete (n cap : Nat) (m : Option Nat) (schema : Nat → Sch) (parts : Nat → List (Except Err Batch))
    (hv : ∀ i b, .ok b ∈ parts i → b.Valid) (size : Msg Sch → Nat)
    (ssteps : List SelectAll.Step) (hss : ∀ st ∈ ssteps, SelectAll.isCrash st = false) (c : Demux.Cfg (Msg Sch))
    (hrecv : SelectAll.Received size c.start (SelectAll.run n cap (fun i => encode m (schema i) (parts i)) ssteps) c.sent)
    (csteps : List Demux.Step) (hcs : Demux.Step.crash ∉ csteps) (i : Nat) (hi : i < n)
    (he : ((Demux.run c (Demux.init c) csteps).chans i).eos = true)
    (hclean : ∀ e, Except.error e ∉ decode {} ((Demux.run c (Demux.init c) csteps).chans i).out) :
    AllSame (batchesOf (decode {} ((Demux.run c (Demux.init c) csteps).chans i).out)) (visible (parts i))
    ∧ (batchesOf (decode {} ((Demux.run c (Demux.init c) csteps).chans i).out)).flatMap Batch.values = rowsOf (parts i)
    ∧ failure (parts i) = none := by
  have hno := no_error_of_decode hclean
  obtain ⟨e, _⟩ := SelectAll.C32_clean_end_is_complete_partial n cap _ size ssteps hss c hrecv csteps hcs i hi he hno
  rw [e] at hclean ⊢
  obtain ⟨out, e', hs⟩ := C84_batches_arrive m (schema i) (parts i) (hv i)
  have hf : failure (parts i) = none := by
    cases hf : failure (parts i) with
    | none => rfl
    | some err => exact absurd (by rw [e', hf]; simp) (hclean err)
  refine ⟨?_, C84_rows_arrive m _ _ (hv i), hf⟩
  rw [e', batchesOf_ok]
  exact hs

namespace Demo'

/-- Both messages of a partition are forwarded and sent, and the stream ends. -/
def forwarded : List SelectAll.Step := [.forward 0, .forward 0, .forward 0, .take 0, .take 0, .finish]

end Demo'

/-- **C84 is false** if the task of the connection panics: the consumer sees the end of its stream, no error, and not all rows. -/
theorem C84_panic_false (s : Sch) : ∃ (c : Demux.Cfg (Msg Sch)) (csteps : List Demux.Step) (bs : List (Except Err Batch)),
    (∀ b, .ok b ∈ bs → b.Valid) ∧ c.connectErr = none ∧ failure bs = none
    ∧ SelectAll.Received (fun _ => 1) c.start (SelectAll.run 1 9 (fun _ => encode none s bs) Demo'.forwarded) c.sent
    ∧ ((Demux.run c (Demux.init c) csteps).chans 0).eos = true
    ∧ (∀ e, Except.error e ∉ decode {} ((Demux.run c (Demux.init c) csteps).chans 0).out)
    ∧ (batchesOf (decode {} ((Demux.run c (Demux.init c) csteps).chans 0).out)).flatMap Batch.values ≠ rowsOf bs := by
  refine ⟨⟨0, 1, 10, none, [.msg 0 1 (.schema s), .msg 0 1 (.batch 1 [.plain [.atom (some [5])]])]⟩,
    [.poll 0, .task, .task, .crash, .poll 0, .poll 0], [.ok ⟨1, [.plain [.atom (some [5])]]⟩], ?_, rfl, rfl, .inl ⟨rfl, rfl⟩, rfl, ?_, ?_⟩
  · intro b hb
    simp only [List.mem_singleton, Except.ok.injEq] at hb
    subst hb
    intro c hc
    simp only [List.mem_singleton] at hc
    subst hc
    exact True.intro
  · intro e he
    exact absurd he (List.not_mem_nil)
  · intro h
    have h := congrArg List.length h
    simp [Demux.run, Demux.step, Demux.pollStep, Demux.taskStep, Demux.init, Demux.send, Demux.upd, Demux.Item.result, decode, batchesOf,
      rowsOf, visible, Batch.values] at h

/-! ### The size of messages -/

/-- `Worker::with_max_message_size` promises a maximum for the size of messages. There is none: for every setting some batch,
of rows with one byte each, is sent in a message that is larger. -/
theorem C84_max_message_size_false (s : Sch) (limit : Nat) :
    ∃ bs : List (Except Err Batch), (∀ b, .ok b ∈ bs → b.Valid ∧ ∀ c ∈ b.cols, ∀ v ∈ c.values, v.bytes = 1)
      ∧ ∃ m, .ok m ∈ encode (some limit) s bs ∧ limit < m.bytes := by
  let col : Col := .plain (List.replicate (limit + 1) (.atom (some [0])))
  refine ⟨[.ok ⟨limit + 1, [col]⟩], ?_, .batch (limit + 1) [.plain (List.replicate (limit + 1) (.atom (some [0])))], ?_, ?_⟩
  · intro b hb
    simp only [List.mem_singleton, Except.ok.injEq] at hb
    subst hb
    refine ⟨fun c hc => ?_, fun c hc v hv => ?_⟩
    · simp only [List.mem_singleton] at hc
      subst hc
      exact True.intro
    · simp only [List.mem_singleton] at hc
      subst hc
      simp only [col, Col.values, List.mem_replicate] at hv
      rw [hv.2]
      rfl
  · simp [encode, encodeFrom, encodeBatch, garbageCollect, gcCol, col, dictsAll, Col.dicts, bodyAll, Col.body, sendDicts]
  · simp [Msg.bytes, bodyBytes, Val.bytes]

/-! ### A case -/

namespace Demo

/-- A dictionary with a value no row uses, a view into the middle of a buffer, a struct with a dictionary of its own. -/
def first : Batch := ⟨2, [.dict [some 2, none] [some [1], some [7], some [2]], .view [some (.ref 1 1 2), some (.inline [9])] [[0], [5, 6, 7]],
  .struct 2 [.dict [some 0, some 1] [some [3], some [4]]]]⟩

/-- The same columns, with other dictionaries. -/
def second : Batch := ⟨1, [.dict [some 0] [some [8]], .view [none] [], .struct 1 [.dict [some 1] [some [3], some [4]]]]⟩

/-- A partition that fails after two batches, with an empty one between them. -/
def part : List (Except Err Batch) := [.ok first, .ok ⟨0, []⟩, .ok second, .error (.user 4)]

theorem part_valid : ∀ b, Except.ok b ∈ part → b.Valid := by
  intro b hb
  simp only [part, List.mem_cons, Except.ok.injEq, List.not_mem_nil, or_false, reduceCtorEq] at hb
  rcases hb with rfl | rfl | rfl <;> intro c hc <;>
    simp only [first, second, List.mem_cons, List.not_mem_nil, or_false] at hc
  · rcases hc with rfl | rfl | rfl
    · intro k hk
      simp only [List.mem_cons, Option.some.injEq, reduceCtorEq, List.not_mem_nil, or_false] at hk
      simp [hk]
    · intro i o l hk
      simp only [List.mem_cons, Option.some.injEq, reduceCtorEq, List.not_mem_nil, or_false, Slot.ref.injEq] at hk
      obtain ⟨rfl, rfl, rfl⟩ := hk
      decide
    · exact True.intro
  · rcases hc with rfl | rfl | rfl
    · intro k hk
      simp only [List.mem_cons, Option.some.injEq, reduceCtorEq, List.not_mem_nil, or_false] at hk
      simp [hk]
    · intro i o l hk
      simp at hk
    · exact True.intro

/-- The second batch does not send the dictionary inside the struct again. -/
example : (encode (Sch := Nat) none 5 part).map (fun m => match m with
    | .ok (.schema _) => "schema" | .ok (.dictionary i d) => s!"dictionary {i} {d.length}" | .ok (.batch n _) => s!"batch {n}"
    | .error _ => "error")
    = ["schema", "dictionary 0 1", "dictionary 1 2", "batch 2", "dictionary 0 1", "batch 1", "error"] := by
  decide +kernel

example : ∃ out : List Batch, decode {} (encode (some 10) 5 part) = (out.map fun b => .ok (5, b)) ++ [.error (.user 4)]
    ∧ AllSame out [first, second] :=
  C84_batches_arrive (some 10) 5 part part_valid

/-- A list of strings from a dictionary, and a union of a dictionary and a list. -/
def nested : Batch := ⟨2, [.list [some (1, 2), none] (.dict [some 0, some 1, none] [some [3], some [4]]),
  .union [(1, 0), (0, 1)] [.dict [none, some 0] [some [6]], .list [some (0, 1)] (.plain [.atom (some [2])])]]⟩

/-- Their values. -/
example : nested.values = [[.seq [.atom (some [4]), .atom none], .case 1 (.seq [.atom (some [2])])],
    [.atom none, .case 0 (.atom (some [6]))]] := by
  simp [Batch.values, nested, rowAll, Col.values, List.range_succ]

/-- Both dictionaries go over the wire, and the batch arrives. -/
example : (encode (Sch := Nat) none 5 [.ok nested]).map (fun m => match m with
    | .ok (.schema _) => "schema" | .ok (.dictionary i d) => s!"dictionary {i} {d.length}" | .ok (.batch n _) => s!"batch {n}"
    | .error _ => "error")
    = ["schema", "dictionary 0 2", "dictionary 1 1", "batch 2"] := by
  decide +kernel

example : (batchesOf (decode {} (encode (some 10) 5 [.ok nested]))).flatMap Batch.values = nested.values := by
  have h := C84_rows_arrive (some 10) 5 [.ok nested] (by
    intro b hb c hc
    simp only [List.mem_singleton, Except.ok.injEq] at hb
    subst hb
    simp only [nested, List.mem_cons, List.not_mem_nil, or_false] at hc
    rcases hc with rfl | rfl <;> exact True.intro)
  simpa [rowsOf] using h

/-- Two partitions whose dictionaries differ. -/
def parts : Nat → List (Except Err Batch) := fun i => if i = 0 then [.ok first, .ok second] else [.ok second]

/-- The worker sends their messages in turn … -/
def server : List SelectAll.Step :=
  (List.replicate 7 [.forward 1, .forward 0]).flatten ++ (List.replicate 6 [.take 0, .take 1]).flatten ++ [.finish]

def srv : SelectAll.State (Msg Nat) := SelectAll.run 2 10 (fun i => encode none i (parts i)) server

def conn : Demux.Cfg (Msg Nat) := ⟨4, 2, 3, none, srv.out.map (SelectAll.wireOf (fun _ => 2) 4)⟩

/-- … and the consumer's two tasks read them in turn. -/
def client : List Demux.Step := (List.replicate 40 [.poll 1, .task, .poll 0]).flatten

/-- Each gets its own batches, and all of them. -/
example : ∀ i < 2, AllSame (batchesOf (decode {} ((Demux.run conn (Demux.init conn) client).chans i).out)) (visible (parts i)) := by
  have hv : ∀ i b, Except.ok b ∈ parts i → b.Valid := by
    intro i b hb
    apply part_valid
    unfold parts at hb
    simp only [part, List.mem_cons, Except.ok.injEq, List.not_mem_nil, or_false, reduceCtorEq]
    split at hb <;> simp at hb
    · rcases hb with h | h
      · exact .inl h
      · exact .inr (.inr h)
    · exact .inr (.inr hb)
  have hr : SelectAll.Received (fun _ => 2) conn.start srv conn.sent := .inl ⟨by decide +kernel, rfl⟩
  have h : ∀ i < 2, ((Demux.run conn (Demux.init conn) client).chans i).eos = true
      ∧ (decode {} ((Demux.run conn (Demux.init conn) client).chans i).out).all (fun r => match r with | .ok _ => true | .error _ => false) = true := by
    decide +kernel
  intro i hi
  refine (C84_complete 2 10 none (fun i => i) parts hv (fun _ => 2) server (by decide +kernel) conn hr client
    (by decide +kernel) i hi (h i hi).1 fun e he => ?_).1
  have := List.all_eq_true.1 (h i hi).2 _ he
  simp at this

end Demo

end DD.Batches
