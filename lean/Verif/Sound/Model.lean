import Verif.Streams.Model
import Verif.Schema.Model

/-!
# Model of streams over sound files

`SoundFileDataSource` (streams/src/external_data_sources/sound_file_data_source.cpp), the
`log_signature_impl` of `ExternalDataStream` (streams/src/external_data_stream.cpp) and the choices
of `from_uri` (roughpy/src/streams/externally_sourced_stream.cpp).

Simplifications.  Parameters and samples are rationals (the code has doubles: the product of a time
and the sample rate may be rounded before `ceil`).  A file is the list of its frames, as the sound
library delivers them after normalisation.  The scalar type of the data is the one of the context,
as is the case if the context is made by `construct_stream` or by `kwargs_to_metadata`.  The context
turns a row of numbers into a Lie element by a function `lie`.
-/

namespace RoughPy.Sound

open RoughPy.Intervals RoughPy.Streams RoughPy.Schema

/-- What a call does: return, throw an exception, or access memory out of bounds. -/
inductive Res (α : Type) where
  | ok (a : α)
  | throws
  | undef
  deriving DecidableEq, Repr

/-- The contents of a sound file: `frames()` frames of `channels()` samples each, `samplerate()`
frames per second. -/
structure SoundFile where
  frames : List (List ℚ)
  channels : ℕ
  rate : ℕ

/-- `SndfileHandle m_handle` — sound_file_data_source.h: an open file and the position of the next
read, shared by all queries. -/
structure Handle where
  file : SoundFile
  pos : ℕ

/-- `sf_seek(frame, SEEK_SET)` of the sound library: `false` (-1) and no move outside `0 … frames()`. -/
def Handle.seek (h : Handle) (frame : ℤ) : Bool × Handle :=
  if 0 ≤ frame ∧ frame ≤ h.file.frames.length then (true, { h with pos := frame.toNat })
  else (false, h)

/-- `sf_readf(ptr, 1)` of the sound library: the next frame; zeros at the end of the file. -/
def Handle.readf (h : Handle) : List ℚ × Handle :=
  match h.file.frames[h.pos]? with
  | some f => (f, { h with pos := h.pos + 1 })
  | none => (List.replicate h.file.channels 0, h)

/-- `param_to_frame` — sound_file_data_source.cpp:48-58; `m_file_start` is 0 and
`m_time_param_scaling` is 1 (sound_file_data_source.h), they are never changed. -/
def paramToFrame (f : SoundFile) (param : ℚ) : ℤ := ⌈(param - 0) * 1 * (f.rate : ℚ)⌉

/-- `chan->type() == ChannelType::Value`. -/
def isValue : Channel → Bool
  | .value _ => true
  | _ => false

/-- The loop over the channels — sound_file_data_source.cpp:124-136.  `none`: an access outside
`working`, `current` or `previous`. -/
def writeRow (s : Schema) (current previous : List ℚ) :
    List (Str × Channel) → ℕ → List ℚ → Option (List ℚ)
  | [], _, working => some working
  | (_, chan) :: chans, i, working => do
    let out ← s.channelToStreamDim i
    let cur ← current[i]?
    let prev ← if isValue chan then previous[i]? else some 0
    if out < working.length then
      writeRow s current previous chans (i + 1)
        (working.set out (if isValue chan then cur - prev else cur))
    else none

/-- The loop over the rows — sound_file_data_source.cpp:109-146: one frame is read, `working` (which
keeps what it has not been given) is appended to the result, and the frame becomes the previous
one. -/
def rowLoop (s : Schema) : ℕ → Handle → List ℚ → List ℚ → List ℚ → Option (List ℚ × Handle)
  | 0, h, _, _, out => some (out, h)
  | n + 1, h, previous, working, out =>
    let r := h.readf
    match writeRow s r.1 previous s.channels 0 working with
    | none => none
    | some working' => rowLoop s n r.2 r.1 working' (out ++ working')

/-- Lines 99-149 of `query_impl`: from the `RPY_CHECK` on. -/
def readRows (s : Schema) (h : Handle) (seekOk : Bool) (previous : List ℚ) (frameBegin frameEnd : ℤ) :
    Res (List ℚ × ℕ) × Handle :=
  if ¬ (0 < frameBegin ∧ frameBegin ≤ frameEnd ∧ frameEnd ≤ h.file.frames.length) then (.throws, h)
  else if ¬ seekOk then (.throws, h)
  else
    let count := (frameEnd - frameBegin).toNat
    match rowLoop s count h previous (List.replicate s.width 0) [] with
    | none => (.undef, h)
    | some (buffer, h') => (.ok (buffer, count), h')

/-- `query_impl` — sound_file_data_source.cpp:60-150: the buffer that has been written, and the
number of rows. -/
def query (s : Schema) (h : Handle) (i : RealInterval) : Res (List ℚ × ℕ) × Handle :=
  let frameBegin := paramToFrame h.file i.inf
  let frameEnd := paramToFrame h.file i.sup
  if frameBegin = frameEnd then (.ok ([], 0), h)
  else
    let frameBegin := if frameBegin = 0 then frameBegin + 1 else frameBegin
    let (seekOk, h) := h.seek (frameBegin - 1)
    let (previous, h) := h.readf
    readRows s h seekOk previous frameBegin frameEnd

/-- The loop of `ExternalDataStream::log_signature_impl` — external_data_stream.cpp:67-71: `n` rows
of `width` numbers each are taken from the buffer.  `none`: reading behind the buffer. -/
def cutRows (width : ℕ) : ℕ → List ℚ → Option (List (List ℚ))
  | 0, _ => some []
  | n + 1, buffer =>
    if buffer.length < width then none
    else (cutRows width n (buffer.drop width)).map (buffer.take width :: ·)

/-- `ExternalDataStream::log_signature_impl` — external_data_stream.cpp:51-75; `width` is the width
of the metadata.  `ctx.log_signature` is the Campbell–Baker–Hausdorff product of the rows. -/
def logSig {L : Type} (ops : LieOps L) (lie : List ℚ → L) (width : ℕ) (s : Schema) (h : Handle)
    (i : RealInterval) : Res L × Handle :=
  match query s h i with
  | (.ok (buffer, n), h') =>
    match cutRows width n buffer with
    | some rows => (.ok (ops.cbh (rows.map lie)), h')
    | none => (.undef, h')
  | (.throws, h') => (.throws, h')
  | (.undef, h') => (.undef, h')

/-! ### The stream -/

/-- The Lie elements of a stream whose computations may throw: `none` is an exception (or undefined
behaviour), which ends every computation it is met in. -/
def failing {L : Type} (ops : LieOps L) : LieOps (Option L) where
  zero := some ops.zero
  isZero := fun x => match x with
    | some y => ops.isZero y
    | none => false
  cbh := fun ls => (ls.mapM fun x => x).map ops.cbh

/-- The value of a call that returned. -/
def Res.value {α : Type} : Res α → Option α
  | .ok a => some a
  | _ => none

/-- `class ExternalDataStream : DyadicCachingLayer` over a sound file.  The position of the handle,
which every query changes, is not a part of the stream here: `logSig` does not depend on it
(`C152_query_partial`).  `empty` is `StreamInterface::empty` — stream_base.cpp:44-52. -/
def soundImpl {L : Type} (ops : ℕ → LieOps L) (lie : ℕ → List ℚ → L) (f : SoundFile) (s : Schema)
    (width : ℕ) (support : RealInterval) (resolution : ℤ) (depth : ℕ) : Impl (Option L) where
  ops := fun ctx => failing (ops ctx)
  impl := fun ctx i => (logSig (ops ctx) (lie ctx) width s ⟨f, 0⟩ i).1.value
  empty := fun i =>
    if i.type = .clopen then i.sup < support.inf || support.sup ≤ i.inf
    else i.sup ≤ support.inf || support.sup < i.inf
  defaultRes := resolution
  defaultDepth := depth
  caching := true

/-! ### `from_uri` -/

/-- The resolution of the stream — externally_sourced_stream.cpp:104-112 (`pmd.resolution` unset is
replaced by 0, and 0 is not passed on) and sound_file_data_source.cpp:279-285, 346 (default 10). -/
def chosenResolution (asked : Option ℤ) : ℤ :=
  let r := asked.getD 0
  if r ≠ 0 then r else 10

/-- The width of the stream — sound_file_data_source.cpp:287-298; `none`: an exception. -/
def chosenWidth (asked : ℕ) (f : SoundFile) : Option ℕ :=
  if asked ≠ 0 then (if asked ≠ f.channels then none else some asked) else some f.channels

/-- The support — sound_file_data_source.cpp:348-354. -/
def chosenSupport (asked : Option RealInterval) (f : SoundFile) : RealInterval :=
  match asked with
  | some i => i
  | none => ⟨0, (f.frames.length : ℚ) / (f.rate : ℚ), .clopen⟩

/-- The schema — sound_file_data_source.cpp:356-360: `from_uri` always passes one, which is
completed to the width if it is not final. -/
def chosenSchema (given : Schema) (width : ℕ) : Option Schema :=
  if given.isFinal then some given else given.finalize width

/-- `from_uri` for a file that the sound library can open — externally_sourced_stream.cpp:63-126 and
`construct_stream`, sound_file_data_source.cpp:275-375.  `none`: an exception. -/
def fromUri {L : Type} (ops : ℕ → LieOps L) (lie : ℕ → List ℚ → L) (f : SoundFile)
    (width : ℕ) (support : Option RealInterval) (resolution : Option ℤ) (schema : Schema)
    (depth : ℕ) : Option (Stream (Option L)) := do
  let w ← chosenWidth width f
  let s ← chosenSchema schema w
  let i := chosenSupport support f
  some ⟨soundImpl ops lie f s w i (chosenResolution resolution) depth, i⟩

end RoughPy.Sound
