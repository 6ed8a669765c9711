/-!
# Voice jitter buffer

Models crates/tetra-entities/src/net_brew/components/jitter_buffer.rs.

Simplifications: the floating point estimate `jitter_us_ewma` appears in the code only through
`ceil(ewma * 2 / 56667) as usize` (line 126). The model does not compute it: every call takes the value
this expression has at that moment as an extra argument `j`, an arbitrary natural number, so that the
theorems hold for every sequence of arrival times. `maybe_warn_unhealthy` only logs. A frame is its
sequence number and payload.
-/
namespace Verif.Brew

def MIN_FRAMES : Nat := 2
def BASE_FRAMES : Nat := 4
def TARGET_MAX_FRAMES : Nat := 12
def MAX_FRAMES : Nat := 24

/-- jitter_buffer.rs lines 24-28 `JitterFrame`. -/
structure Frame where
  rxSeq : Nat
  data : List Nat
  deriving DecidableEq, Repr

/-- jitter_buffer.rs lines 31-44 `VoiceJitterBuffer`. -/
structure Jitter where
  frames : List Frame
  nextRxSeq : Nat
  started : Bool
  targetFrames : Nat
  underrunBoost : Nat
  stablePops : Nat
  droppedOverflow : Nat
  underruns : Nat
  initialLatency : Nat
  deriving DecidableEq, Repr

namespace Jitter

/-- jitter_buffer.rs lines 47-54 `with_initial_latency`. -/
def withInitialLatency (n : Nat) : Jitter :=
  let initial := min n (TARGET_MAX_FRAMES - MIN_FRAMES)
  ⟨[], 0, false, BASE_FRAMES + initial, 0, 0, 0, 0, initial⟩

/-- jitter_buffer.rs lines 57-59 and 83-85. -/
def initTarget (s : Jitter) : Jitter :=
  if s.targetFrames = 0 then { s with targetFrames := BASE_FRAMES + s.initialLatency } else s

/-- jitter_buffer.rs lines 125-129 `recompute_target`. -/
def recompute (s : Jitter) (j : Nat) : Jitter :=
  let target := BASE_FRAMES + s.initialLatency + j + s.underrunBoost
  { s with targetFrames := min (max target MIN_FRAMES) TARGET_MAX_FRAMES }

/-- jitter_buffer.rs lines 75-78: the loop dropping the oldest frames. -/
def dropOld (frames : List Frame) : List Frame := frames.drop (frames.length - MAX_FRAMES)

/-- jitter_buffer.rs lines 56-80 `push`. -/
def push (s : Jitter) (data : List Nat) (j : Nat) : Jitter :=
  let s := s.initTarget
  let frames := s.frames ++ [⟨s.nextRxSeq, data⟩]
  recompute { s with nextRxSeq := (s.nextRxSeq + 1) % 2 ^ 64, frames := dropOld frames,
                     droppedOverflow := s.droppedOverflow + (frames.length - MAX_FRAMES) } j

/-- jitter_buffer.rs lines 94-118: taking a frame once play-out runs. -/
def take (s : Jitter) (j : Nat) : Option Frame × Jitter :=
  match s.frames with
  | frame :: rest =>
    let s := { s with frames := rest }
    if rest.length ≥ s.targetFrames then
      let s := { s with stablePops := min (s.stablePops + 1) (2 ^ 32 - 1) }
      if s.stablePops ≥ 80 then
        let s := { s with stablePops := 0 }
        if s.underrunBoost > 0 then (some frame, recompute { s with underrunBoost := s.underrunBoost - 1 } j)
        else (some frame, s)
      else (some frame, s)
    else (some frame, { s with stablePops := 0 })
  | [] =>
    (none, recompute { s with started := false, underruns := s.underruns + 1,
                              underrunBoost := min (s.underrunBoost + 1) 4, stablePops := 0 } j)

/-- jitter_buffer.rs lines 82-119 `pop_ready`. -/
def popReady (s : Jitter) (j : Nat) : Option Frame × Jitter :=
  let s := s.initTarget
  if s.started then take s j
  else if s.frames.length < s.targetFrames then (none, s)
  else take { s with started := true } j

/-- jitter_buffer.rs lines 121-123 `target_frames`. -/
def target (s : Jitter) : Nat := max s.targetFrames MIN_FRAMES

end Jitter
end Verif.Brew
