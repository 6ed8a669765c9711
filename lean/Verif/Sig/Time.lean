import Verif.Sig.Aborts
import Verif.Sig.Down
/-!
# The network time

Property C73: once in every hyperframe, if a time zone is configured, the cell tells everyone the time, and mobiles read the time which
the clock shows.
-/
namespace Verif.Sig
open Verif.Tdma Verif.Bits
open Verif.Umac (Addr SsiType)
open Verif.Cmce (BsEv BsOut Bs)
open Verif.Mle (Mle Clock)

/-! ## Specification -/

/-- A year which can be told, and an offset which can. -/
def Plausible (k : Clock) : Prop := 2000 ≤ k.year ∧ k.year < 2064 ∧ k.secs ≤ 366 * 86400 ∧ k.offset.natAbs < 16 * 3600

/-- D-NWRK-BROADCAST with the time (EN 300 392-2 clauses 18.4.1.4.1, 18.5.24): MLE protocol 5, PDU type 2, no parameters for cell
reselection, no cell load, the time, no neighbour cells. The time: half the seconds of the year, the sign and the quarters of an hour of
the local offset, the year since 2000, eleven ones. -/
def timeMessage (k : Clock) : List Bool :=
  [true, false, true] ++ [false, true, false] ++ List.replicate 18 false ++ [true] ++ [true] ++
    (toBits 24 (k.secs / 2) ++ [decide (k.offset < 0)] ++ toBits 6 (k.offset.natAbs / 900) ++ toBits 6 (k.year - 2000).toNat ++ List.replicate 11 true) ++
    [true] ++ [false, false, false]

/-- The broadcasts which are due: at the first timeslot of frame 1 of multiframe 20. -/
def due (zone : Bool) (evs : List Ev) : List Order := evs.flatMap fun e => match e with
  | .tickStart now _ clock _ => if zone = true ∧ now.m = 20 ∧ now.f = 1 ∧ now.t = 1 then
      [⟨.unacknowledged 1 none false, ⟨0xFFFFFF, .gssi, false⟩, timeMessage clock⟩] else []
  | _ => []

/-- What a mobile takes from the 48 bits: year, seconds, offset in seconds. -/
def readTime (bits : List Bool) : Int × Nat × Int :=
  (2000 + ofBits ((bits.drop 31).take 6), ofBits (bits.take 24) * 2,
    (if bits[24]? = some true then -1 else 1) * (ofBits ((bits.drop 25).take 6) * 900 : Nat))

/-! ## Contents -/

theorem time_bits {k : Clock} (h : Plausible k) : toBits 48 k.encode =
    toBits 24 (k.secs / 2) ++ [decide (k.offset < 0)] ++ toBits 6 (k.offset.natAbs / 900) ++ toBits 6 (k.year - 2000).toNat ++ List.replicate 11 true := by
  obtain ⟨h1, h2, h3, h4⟩ := h
  have e1 : k.secs / 2 % 2 ^ 24 = k.secs / 2 := Nat.mod_eq_of_lt (by omega)
  have e2 : k.offset.natAbs / 900 % 2 ^ 6 = k.offset.natAbs / 900 := Nat.mod_eq_of_lt (by omega)
  have e3 : ((k.year - 2000) % 2 ^ 6).toNat = (k.year - 2000).toNat := by omega
  have b1 : k.secs / 2 < 2 ^ 24 := by omega
  have b2 : k.offset.natAbs / 900 < 64 := by omega
  have b3 : (k.year - 2000).toNat < 64 := by omega
  unfold Clock.encode
  rw [e1, e2, e3]
  generalize k.secs / 2 = a at *
  generalize k.offset.natAbs / 900 = b at *
  generalize (k.year - 2000).toNat = y at *
  have b4 : (if k.offset < 0 then 1 else 0) < 2 := by split <;> decide
  have e5 : toBits 1 (if k.offset < 0 then 1 else 0) = [decide (k.offset < 0)] := by
    split <;> rename_i h <;> simp [h] <;> decide
  generalize hs : (if k.offset < 0 then 1 else 0) = s at *
  generalize hv : a * 2 ^ 24 + s * 2 ^ 23 + b * 2 ^ 17 + y * 2 ^ 11 + 0x7FF = v
  have part : ∀ {n w : Nat}, v % 2 ^ n = w % 2 ^ n → toBits n v = toBits n w := by
    intro n w h
    rw [← toBits_mod n v, h, toBits_mod]
  rw [show 48 = 24 + (1 + (6 + (6 + 11))) from rfl, toBits_add, toBits_add, toBits_add, toBits_add]
  simp only [Nat.shiftRight_eq_div_pow]
  have r1 : v / 2 ^ (1 + (6 + (6 + 11))) = a := by omega
  have r2 : toBits 1 (v / 2 ^ (6 + (6 + 11))) = toBits 1 s := by rw [← toBits_mod 1 (v / _)]; congr 1; omega
  have r3 : toBits 6 (v / 2 ^ (6 + 11)) = toBits 6 b := by rw [← toBits_mod 6 (v / _)]; congr 1; omega
  have r4 : toBits 6 (v / 2 ^ 11) = toBits 6 y := by rw [← toBits_mod 6 (v / _)]; congr 1; omega
  have r5 : toBits 11 v = List.replicate 11 true := by
    rw [← toBits_mod 11 v, show v % 2 ^ 11 = 0x7FF by omega]; decide
  rw [r1, r2, r3, r4, r5, e5]
  simp

theorem time_message {k : Clock} (h : Plausible k) (ts : Nat) :
    Mle.sendTime ts k = .ok [.tlUnitdata ⟨0xFFFFFF, .gssi, false⟩ ts none false (timeMessage k)] := by
  have : toBits 3 (Mle.Disc.raw .mle) ++ (toBits 3 2 ++ toBits 16 0 ++ toBits 2 0 ++ [true] ++ [true] ++ toBits 48 k.encode ++ [true] ++ toBits 3 0) = timeMessage k := by
    rw [time_bits h]
    unfold timeMessage
    simp only [List.append_assoc]
    rfl
  unfold Mle.sendTime
  rw [time_enc]
  simp only [Mle.pushTime, this]
  rfl

/-- **C73, contents.** A mobile which reads the broadcast gets the year, the time to two seconds and the local offset to a quarter of an
hour. -/
theorem c73_read {k : Clock} (h : Plausible k) :
    readTime (((timeMessage k).drop 26).take 48) = (k.year, k.secs / 2 * 2, k.offset.tdiv 900 * 900) := by
  obtain ⟨h1, h2, h3, h4⟩ := h
  have e : ((timeMessage k).drop 26).take 48 =
      toBits 24 (k.secs / 2) ++ ([decide (k.offset < 0)] ++ (toBits 6 (k.offset.natAbs / 900) ++ (toBits 6 (k.year - 2000).toNat ++ List.replicate 11 true))) := by
    unfold timeMessage
    simp [List.drop_append, List.take_append]
    rw [List.take_of_length_le (l := toBits 24 _) (by simp), List.take_of_length_le (l := toBits 6 _) (by simp),
      List.take_of_length_le (l := toBits 6 (k.year - 2000).toNat) (by simp)]
  rw [e]
  unfold readTime
  have b1 : k.secs / 2 < 2 ^ 24 := by omega
  have b2 : k.offset.natAbs / 900 < 2 ^ 6 := by omega
  have b3 : (k.year - 2000).toNat < 2 ^ 6 := by omega
  have t1 : ∀ r, ofBits ((toBits 24 (k.secs / 2) ++ r).take 24) = k.secs / 2 := by
    intro r
    rw [List.take_append_of_le_length (by simp), List.take_of_length_le (by simp), ofBits_toBits b1]
  have t2 : (((toBits 24 (k.secs / 2) ++ ([decide (k.offset < 0)] ++ (toBits 6 (k.offset.natAbs / 900) ++ (toBits 6 (k.year - 2000).toNat ++ List.replicate 11 true)))).drop 25).take 6) =
      toBits 6 (k.offset.natAbs / 900) := by
    simp [List.drop_append, List.take_append]
  have t3 : (((toBits 24 (k.secs / 2) ++ ([decide (k.offset < 0)] ++ (toBits 6 (k.offset.natAbs / 900) ++ (toBits 6 (k.year - 2000).toNat ++ List.replicate 11 true)))).drop 31).take 6) =
      toBits 6 (k.year - 2000).toNat := by
    simp [List.drop_append, List.take_append]
  have t4 : (toBits 24 (k.secs / 2) ++ ([decide (k.offset < 0)] ++ (toBits 6 (k.offset.natAbs / 900) ++ (toBits 6 (k.year - 2000).toNat ++ List.replicate 11 true))))[24]? =
      some (decide (k.offset < 0)) := by
    rw [List.getElem?_append_right (by simp)]; simp
  rw [t1, t2, t3, t4, ofBits_toBits b2, ofBits_toBits b3]
  refine Prod.ext ?_ (Prod.ext rfl ?_)
  · simp only; omega
  · by_cases h0 : k.offset < 0
    · obtain ⟨n, hn⟩ : ∃ n : Nat, k.offset = -(n : Int) := ⟨k.offset.natAbs, by omega⟩
      simp only [h0, decide_true, if_true]
      rw [hn, Int.neg_tdiv, Int.natAbs_neg, Int.natAbs_natCast]
      have : (n : Int).tdiv 900 = (n / 900 : Nat) := rfl
      rw [this]
      omega
    · obtain ⟨n, hn⟩ : ∃ n : Nat, k.offset = (n : Int) := ⟨k.offset.natAbs, by omega⟩
      simp only [h0, decide_false]
      rw [hn, Int.natAbs_natCast]
      have : (n : Int).tdiv 900 = (n / 900 : Nat) := rfl
      rw [this]
      simp

/-- A winter morning in New York. -/
example : Plausible ⟨2026, 27561600, -18000⟩ ∧ readTime (((timeMessage ⟨2026, 27561600, -18000⟩).drop 26).take 48) = (2026, 27561600, -18000) := by
  refine ⟨by unfold Plausible; decide, by decide⟩

/-! ## When -/

theorem tick_due {s s' : Mle} {now : Time} {k : Clock} {out : List Mle.Out} (hz : s.time = true → s.zone = true) (hk : Plausible k)
    (h : s.tick now k = .ok (s', out)) : s'.zone = s.zone ∧ (s'.time = true → s'.zone = true) ∧
      announced [.time out] = due s.zone [.tickStart now [] k true] := by
  unfold Mle.Mle.tick at h
  split at h
  · rename_i hn
    unfold Mle.Mle.broadcast at h
    split at h
    · rename_i hb
      have hzone : s.zone = true := hb.elim hz id
      rw [time_message hk] at h
      cases h
      exact ⟨rfl, fun _ => hzone, by simp [announced, due, hzone, hn]⟩
    · rename_i hb
      simp only [not_or, Bool.not_eq_true] at hb
      cases h
      exact ⟨rfl, by simp, by simp [announced, due, hb.2]⟩
  · rename_i hn
    cases h
    refine ⟨rfl, hz, ?_⟩
    simp only [due, List.flatMap_cons, List.flatMap_nil, List.append_nil]
    rw [if_neg (fun h => hn h.2)]
    rfl

theorem due_append (z : Bool) (a b : List Ev) : due z (a ++ b) = due z a ++ due z b := by simp [due]

theorem rx_zone {s s' : Mle} {m : Mle.In} {out : List Mle.Out} (h : s.rx m = .ok (s', out)) : s'.zone = s.zone ∧ s'.time = s.time := by
  cases m with
  | unitdataInd => cases h
  | lmm => simp only [Mle.Mle.rx, Res.bind_eq_ok] at h; obtain ⟨_, _, h⟩ := h; cases h; exact ⟨rfl, rfl⟩
  | lcmc => cases h; exact ⟨rfl, rfl⟩
  | dataInd addr link ts sdu =>
    cases sdu with
    | none => cases h
    | some sdu =>
      simp only [Mle.Mle.rx, Mle.Mle.dataInd] at h
      split at h
      · cases h; exact ⟨rfl, rfl⟩
      · split at h
        · cases h; exact ⟨rfl, rfl⟩
        · rename_i d _
          have key : ∀ {r : Mle × Nat}, s.createHandle = .ok r → r.1.zone = s.zone ∧ r.1.time = s.time := by
            intro r h
            unfold Mle.Mle.createHandle at h
            split at h <;> cases h
            exact ⟨rfl, rfl⟩
          cases d <;> simp only [Mle.Mle.dispatch, Res.bind_eq_ok] at h
          · obtain ⟨r, h1, h⟩ := h; cases h; exact key h1
          · obtain ⟨r, h1, h⟩ := h; cases h; exact key h1
          · cases h; exact ⟨rfl, rfl⟩
          · cases h; exact ⟨rfl, rfl⟩
          · cases h; exact ⟨rfl, rfl⟩

/-- The invariant. -/
def TimeInv (c : Cfg) (evs : List Ev) (tr : List Call) (s : St) : Prop :=
  s.mle.zone = c.zone ∧ (s.mle.time = true → s.mle.zone = true) ∧ announced tr = due c.zone evs

theorem TimeInv.quiet {c : Cfg} {evs : List Ev} {tr k : List Call} {s s' : St} {e : Ev} (h : TimeInv c evs tr s) (hm : s'.mle = s.mle)
    (hk : announced k = []) (he : due c.zone [e] = []) : TimeInv c (evs ++ [e]) (tr ++ k) s' := by
  refine ⟨by rw [hm]; exact h.1, by rw [hm]; exact h.2.1, ?_⟩
  rw [announced_append, due_append, hk, he, h.2.2]

theorem time_inv {c : Cfg} {evs : List Ev} {tr : List Call} {s : St} (h : Run c evs tr s)
    (hk : ∀ now cmds clock b, Ev.tickStart now cmds clock b ∈ evs → Plausible clock) : TimeInv c evs tr s := by
  induction h with
  | init => exact ⟨rfl, by simp [St.init, Mle.Mle.new], rfl⟩
  | reorder _ _ ih => exact ih hk
  | @step evs tr calls s s' e _ hs ih =>
    have ih := ih fun now cmds clock b hm => hk now cmds clock b (List.mem_append_left _ hm)
    cases e with
    | frame => cases hs; exact ih.quiet rfl rfl rfl
    | toCmce => cases hs; exact ih.quiet rfl rfl rfl
    | tickEnd => obtain ⟨_, _, _, rfl, rfl⟩ := callLlc_ok hs; exact ih.quiet rfl rfl rfl
    | mac => obtain ⟨_, _, _, rfl, rfl⟩ := callLlc_ok hs; exact ih.quiet rfl rfl rfl
    | deliver =>
      simp only [St.step] at hs
      split at hs
      · cases hs; exact ih.quiet rfl rfl rfl
      · rename_i l q hq
        cases l with
        | frame => obtain ⟨_, _, _, rfl, rfl⟩ := callLlc_ok hs; exact ih.quiet rfl rfl rfl
        | mle m =>
          obtain ⟨_, _, h1, rfl, rfl⟩ := callMle_ok hs
          obtain ⟨hz, ht⟩ := rx_zone h1
          refine ⟨hz.trans ih.1, fun h => ?_, ?_⟩
          · exact hz.trans (ih.2.1 (ht.symm.trans h))
          · rw [announced_append, due_append, ih.2.2]; rfl
        | mm => obtain ⟨_, _, _, rfl, rfl⟩ := callMm_ok hs; exact ih.quiet rfl rfl rfl
        | cmce => obtain ⟨_, _, _, rfl, rfl⟩ := callBs_ok hs; exact ih.quiet rfl rfl rfl
        | sndcp => cases hs
        | tlData => obtain ⟨_, _, _, rfl, rfl⟩ := callLlc_ok hs; exact ih.quiet rfl rfl rfl
        | tlUnitdata => obtain ⟨_, _, _, rfl, rfl⟩ := callLlc_ok hs; exact ih.quiet rfl rfl rfl
    | tickStart now cmds clock b =>
      simp only [St.step] at hs
      obtain ⟨s1, k1, k2, h1, h2, rfl⟩ := andThen_ok hs
      obtain ⟨_, _, _, rfl, rfl⟩ := callLlc_ok h1
      have hp := hk now cmds clock b (by simp)
      split at h2
      · obtain ⟨s2, k3, k4, h3, h4, rfl⟩ := andThen_ok h2
        obtain ⟨_, _, h5, rfl, rfl⟩ := tickMle_ok h3
        obtain ⟨_, _, _, rfl, rfl⟩ := callBs_ok h4
        obtain ⟨z1, z2, z3⟩ := tick_due ih.2.1 hp h5
        refine ⟨z1.trans ih.1, z2, ?_⟩
        rw [announced_append, due_append, ih.2.2, announced_append, announced_append, z3]
        simp [announced, due, ih.1]
      · obtain ⟨s2, k3, k4, h3, h4, rfl⟩ := andThen_ok h2
        obtain ⟨_, _, _, rfl, rfl⟩ := callBs_ok h3
        obtain ⟨_, _, h5, rfl, rfl⟩ := tickMle_ok h4
        obtain ⟨z1, z2, z3⟩ := tick_due ih.2.1 hp h5
        refine ⟨z1.trans ih.1, z2, ?_⟩
        rw [announced_append, due_append, ih.2.2, announced_append, announced_append, z3]
        simp [announced, due, ih.1]

/-- **C73.** In every history the messages of MLE which the LLC was asked to send are the broadcasts which were due, in order, each
once; what is missing is still in the queue. -/
theorem c73_times {c : Cfg} {evs : List Ev} {tr : List Call} {s : St} (h : Run c evs tr s)
    (hk : ∀ now cmds clock b, Ev.tickStart now cmds clock b ∈ evs → Plausible clock) :
    ∃ rest, due c.zone evs = (ordered tr).filter Order.ofMle ++ rest ∧ (s.queue = [] → rest = []) := by
  obtain ⟨_, times, _, h2, h3⟩ := c72_ordered h
  rw [(time_inv h hk).2.2] at h2
  exact ⟨times, h2, fun hq => (h3 hq).2⟩

end Verif.Sig
