import Verif.Streams.Model

/-!
# Model of `TickStream` — streams/src/tick_stream.cpp
-/

namespace RoughPy.Streams

open RoughPy.Intervals

/-- Data members of `class TickStream` — tick_stream.h:47-49. -/
structure Tick (L : Type) where
  times : List ℚ
  data : DyadicInterval → Option L
  res : ℤ

/-- `std::set<param_t>::insert`, the set kept as an increasing list. -/
def insertTime (t : ℚ) : List ℚ → List ℚ
  | [] => [t]
  | s :: m => if t < s then t :: s :: m else if s < t then s :: insertTime t m else s :: m

/-- `std::lower_bound` on the sorted time vector: index of the first element `≥ x`. -/
def lowerBoundT (times : List ℚ) (x : ℚ) : ℕ := times.findIdx fun t => decide (x ≤ t)

/-- `std::upper_bound`: index of the first element `> x`. -/
def upperBoundT (times : List ℚ) (x : ℚ) : ℕ := times.findIdx fun t => decide (x < t)

/-- `for (; !i.contains_dyadic(target); j = i.expand_interval(), i = j) {}` —
tick_stream.cpp:70-71, 95, 115.  `none`: not finished within the fuel. -/
def expandUntil (target : DyadicInterval) : ℕ → DyadicInterval → Option DyadicInterval
  | fuel, i =>
    if i.containsDyadic target then some i
    else match fuel with
      | 0 => none
      | fuel + 1 => (i.expand).bind (expandUntil target fuel)

/-- `TickStream::smallest_dyadic_containing_all_events` — tick_stream.cpp:42-76.  The outer
`none` is a loop that did not finish or (for opencl intervals) a dereferenced end iterator. -/
def smallestContaining (times : List ℚ) (res : ℤ) (fuel : ℕ) (di : DyadicInterval) :
    Option (Option DyadicInterval) :=
  let be := lowerBoundT times di.inf
  let en := lowerBoundT times di.sup
  if en = be then some none
  else
    let ends := match di.type with
      | .clopen => (times[be]?, times[en - 1]?)
      | .opencl => (times[be + 1]?, times[en]?)
    match ends with
    | (some first, some last) =>
      let back := DyadicInterval.ofParam last res .clopen
      let i := DyadicInterval.ofParam first res .clopen
      (expandUntil ⟨back.k, back.n, .clopen⟩ fuel i).map some
    | _ => none

/-- `smallest_dyadic_containing_all_negative_events` for clopen metadata —
tick_stream.cpp:77-99 (`upper_bound(0)`: an event at time 0 counts as negative). -/
def smallestNegative (times : List ℚ) (res : ℤ) (fuel : ℕ) : Option (Option DyadicInterval) :=
  let zeu := upperBoundT times 0
  if zeu = 0 then some none
  else match times[0]?, times[zeu - 1]? with
    | some first, some last =>
      (expandUntil (DyadicInterval.ofParam last res .clopen) fuel
        (DyadicInterval.ofParam first res .clopen)).map some
    | _, _ => none

/-- `smallest_dyadic_containing_all_positive_events` for clopen metadata —
tick_stream.cpp:100-121 (`zero_negative` is false: the excluded end of `[0, 2^-res)` is
positive). -/
def smallestPositive (times : List ℚ) (res : ℤ) (fuel : ℕ) : Option (Option DyadicInterval) :=
  let zeu := lowerBoundT times 0
  if zeu = times.length then some none
  else match times[zeu]?, times[times.length - 1]? with
    | some first, some last =>
      (expandUntil (DyadicInterval.ofParam last res .clopen) fuel
        (DyadicInterval.ofParam first res .clopen)).map some
    | _, _ => none

/-- `TickStream::recursive_logsig` — tick_stream.cpp:122-147.  Threads the map `m_data`.  The
null entry that `m_data[*pdi1]` creates for an absent key is not represented: it is overwritten
(line 143) before anything looks at it again, and keys of the stream's own resolution are never
absent. -/
def recursiveLogsig {L : Type} (ops : LieOps L) (times : List ℚ) (res : ℤ) (fuel : ℕ) :
    ℕ → DyadicInterval → (DyadicInterval → Option L) → Option (L × (DyadicInterval → Option L))
  | 0, _, _ => none
  | depth + 1, di, m =>
    match smallestContaining times res fuel di with
    | none => none
    | some none => some (ops.zero, m)
    | some (some p) =>
      let it := (m p).getD ops.zero
      if !ops.isZero it then some (it, m)
      else if p.n = res then some (it, m)
      else
        match p.shrinkLeft 1, p.shrinkRight with
        | some l, some r =>
          match recursiveLogsig ops times res fuel depth l m with
          | none => none
          | some (x, m₁) =>
            match recursiveLogsig ops times res fuel depth r m₁ with
            | none => none
            | some (y, m₂) =>
              let v := ops.cbh [x, y]
              some (v, Function.update m₂ p (some v))
        | _, _ => none

/-- The loop over the time-stamped increments — tick_stream.cpp:200-212 (and 163-185), clopen
metadata. -/
def tickInsert {L : Type} (ops : LieOps L) (res : ℤ)
    (st : List ℚ × (DyadicInterval → Option L)) (item : ℚ × L) :
    List ℚ × (DyadicInterval → Option L) :=
  let di := DyadicInterval.ofParam item.1 res .clopen
  let v := match st.2 di with
    | some existing => ops.cbh [existing, item.2]
    | none => item.2
  (insertTime di.includedEnd st.1, Function.update st.2 di (some v))

/-- The constructor `TickStream(StreamConstructionHelper&&, StreamMetadata, resolution)` —
tick_stream.cpp:190-222, for clopen metadata; `items` is `helper.finalise()`, a multimap, hence
in time order. -/
def tickBuild {L : Type} (ops : LieOps L) (res : ℤ) (items : List (ℚ × L)) (fuel : ℕ) :
    Option (Tick L) :=
  let (times, m) := items.foldl (tickInsert ops res) ([], fun _ => none)
  match smallestNegative times res fuel with
  | none => none
  | some neg =>
    let m₁ := match neg with
      | none => some m
      | some d => (recursiveLogsig ops times res fuel fuel d m).map Prod.snd
    match m₁ with
    | none => none
    | some m₁ =>
      match smallestPositive times res fuel with
      | none => none
      | some pos =>
        let m₂ := match pos with
          | none => some m₁
          | some d => (recursiveLogsig ops times res fuel fuel d m₁).map Prod.snd
        m₂.map fun m₂ => ⟨times, m₂, res⟩

/-- `TickStream::log_signature_impl` — tick_stream.cpp:223-235.  `none` also stands for
dereferencing `m_data.end()` (the `RPY_DBG_ASSERT` of line 231). -/
def tickLogSig {L : Type} (ops : LieOps L) (s : Tick L) (fuel : ℕ) (di : DyadicInterval) : Option L :=
  match smallestContaining s.times s.res fuel di with
  | none => none
  | some none => some ops.zero
  | some (some p) => s.data p

/-- `Stream::log_signature_impl` on a tick stream — stream.cpp:107-123 with
stream_base.cpp:72-80 (no caching layer), queried in the stream's own context. -/
def tickQuery {L : Type} (ops : LieOps L) (s : Tick L) (fuel : ℕ) (a b : ℚ) (res : ℤ) : Option L :=
  match toDyadicIntervals fuel a b res .clopen with
  | none => none
  | some ds =>
    match ds.mapM (tickLogSig ops s fuel) with
    | none => none
    | some results => some (ops.cbh (results.filter fun x => !ops.isZero x))

end RoughPy.Streams
