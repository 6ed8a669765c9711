import Verif.Lmac.ConvEnc
/-!
# Viterbi decoder

Model of `crates/tetra-entities/src/lmac/components/viterbi.rs`. Metrics are `i16` with wrap-around (`w16`).
-/
namespace Verif.Viterbi

/-- One generator polynomial `[bool; K]` with `K = 5`. -/
structure Poly where
  p0 : Bool
  p1 : Bool
  p2 : Bool
  p3 : Bool
  p4 : Bool
  deriving DecidableEq, Repr

/-- Two's complement `i16` result of an addition or subtraction. -/
def w16 (x : Int) : Int := Int.bmod x 65536

/-- One entry of `expected_0` (viterbi.rs:45-58): the loop over `bit_i in 0..4` toggles once for each state bit `3 - bit_i`
selected by the polynomial. -/
def expected0 (p : Poly) (state : Nat) : Int :=
  if (state.testBit 3 && p.p0) ^^ (state.testBit 2 && p.p1) ^^ (state.testBit 1 && p.p2) ^^ (state.testBit 0 && p.p3) then 1 else -1

/-- Branch metric of a state (viterbi.rs:80-90); the `i8` product of values in `{-1,0,1}` cannot overflow. -/
def branch (polys : List Poly) (chunk : List Int) (state : Nat) : Int :=
  (chunk.zip polys).foldl (fun m rp => w16 (m - rp.1 * expected0 rp.2 state)) 0

/-- `Metric::MAX / 2`. -/
def bigMetric : Int := 16383

/-- Initial metrics (viterbi.rs:75-76). -/
def initMetrics : List Int := 0 :: List.replicate 15 bigMetric

/-- New metric and decision of one state (viterbi.rs:95-117). -/
def select (metrics : List Int) (bm : Int) (state : Nat) : Int × Bool :=
  let p0 := state * 2 % 16
  let m0 := w16 (metrics.getD p0 0 + bm)
  let m1 := w16 (metrics.getD (p0 + 1) 0 - bm)
  if m1 < m0 then (m1, true) else (m0, false)

/-- One trellis step (viterbi.rs:78-119): new metrics, and the decision bitmap as a list of 16 booleans. -/
def step (polys : List Poly) (metrics : List Int) (chunk : List Int) : List Int × List Bool :=
  let r := (List.range 16).map (fun s => select metrics (branch polys chunk s) s)
  (r.map Prod.fst, r.map Prod.snd)

/-- `chunks_exact(n)` for a positive `n`. -/
def chunksExact (n : Nat) (l : List Int) : List (List Int) :=
  (List.range (l.length / n)).map (fun i => (l.drop (i * n)).take n)

/-- The forward pass (viterbi.rs:64-120). -/
def forward (polys : List Poly) (chunks : List (List Int)) : List Int × List (List Bool) :=
  chunks.foldl (fun (st : List Int × List (List Bool)) c => let r := step polys st.1 c; (r.1, st.2 ++ [r.2])) (initMetrics, [])

/-- Traceback loop (viterbi.rs:125-131) over the decisions, last step first; the bits come out last first. -/
def traceback : List (List Bool) → Nat → List Bool
  | [], _ => []
  | d :: ds, s => ((s >>> 3) &&& 1 == 1) :: traceback ds (s * 2 % 16 + (d.getD s false).toNat)

/-- `decode` (viterbi.rs:63-134). -/
def decode (polys : List Poly) (received : List Int) : List Bool :=
  (traceback (forward polys (chunksExact polys.length received)).2.reverse 0).reverse

/-- `TetraViterbiDecoder::new` (viterbi.rs:140-149). -/
def cchPolys : List Poly :=
  [⟨true, true, false, false, true⟩, ⟨true, false, true, true, true⟩, ⟨true, true, true, false, true⟩, ⟨true, true, false, true, true⟩]

/-- `TetraCodecViterbiDecoder::new` (viterbi.rs:155-163). -/
def speechPolys : List Poly :=
  [⟨true, true, true, true, true⟩, ⟨true, true, false, true, true⟩, ⟨true, false, true, false, true⟩]

/-- The mapping of received mother-code symbols to soft bits (viterbi.rs:173-181, errorcontrol.rs:341-349). A symbol is a
received bit or an erasure; other byte values do not occur because the buffers hold only bits and the erasure mark. -/
def soft : Option Bool → Int
  | some false => -1
  | some true => 1
  | none => 0

/-- `dec_sb1` (viterbi.rs:167-187). -/
def decSb1 (inBuf : List (Option Bool)) (outBuf : List Bool) (symCount : Nat) : Res (List Bool) := do
  Res.assert (decide (symCount ≤ 864))
  Res.assert (decide (inBuf.length ≥ symCount * 4))
  Res.assert (decide (outBuf.length ≥ symCount))
  let decoded := decode cchPolys ((inBuf.take (symCount * 4)).map soft)
  Res.assert (decide (decoded.length ≥ symCount))
  pure (decoded.take symCount ++ outBuf.drop symCount)

end Verif.Viterbi
