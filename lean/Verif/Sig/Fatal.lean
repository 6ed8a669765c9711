import Verif.Sig.Aborts
import Verif.Cmce.SdsProps
/-!
# The fatal frames abort the base station

The converse half of C71: a fatal frame aborts the process in every state; so do, by name, a message of mobility management and one of
call control, and the frame which uses up the numbers of MLE.
-/
namespace Verif.Sig
open Verif.Tdma Verif.Bits
open Verif.Umac (Addr SsiType)
open Verif.Cmce (BsEv BsOut Bs BsRun CcOut Party Service SdsView SubUpdate Control)
open Verif.Mm (Mm MmIn MmOut MmRun)
open Verif.Mle (Mle)
open Verif.Llc (Llc)

/-- A message which aborts when it is delivered, or leads to one which does. -/
def Doom (c : Cfg) : Nat → Letter → Prop
  | 0, l => ∀ s : St, s.handle c l = .panic
  | n + 1, l => ∀ (s s' : St) (k : List Call), s.handle c l = .ok (s', k) → ∃ x ∈ s'.queue, Doom c n x

theorem doom_aborts {c : Cfg} (n : Nat) {l : Letter} (hd : Doom c n l) {s : St} (hl : l ∈ s.queue) : ∃ k, s.delivers c k = .panic := by
  induction n generalizing l s with
  | zero =>
    obtain ⟨a, b, hq⟩ := List.append_of_mem hl
    clear hl
    induction a generalizing s b with
    | nil =>
      have hs : s.step c .deliver = .panic := (deliver_cons hq).trans (hd _)
      exact ⟨1, by simp [St.delivers, hs]⟩
    | cons x a ih =>
      cases hs : s.step c .deliver with
      | panic => exact ⟨1, by simp [St.delivers, hs]⟩
      | ok r =>
        have h1 := hs
        rw [deliver_cons hq] at h1
        obtain ⟨ls, h2, _⟩ := handle_level (s' := r.1) (k := r.2) h1
        obtain ⟨k, hk⟩ := ih (s := r.1) (b ++ ls) (by rw [h2]; simp)
        exact ⟨k + 1, by rw [delivers_succ (s1 := r.1) (k := r.2) hs]; exact hk⟩
  | succ n ihn =>
    obtain ⟨a, b, hq⟩ := List.append_of_mem hl
    clear hl
    induction a generalizing s b with
    | nil =>
      cases hs : s.step c .deliver with
      | panic => exact ⟨1, by simp [St.delivers, hs]⟩
      | ok r =>
        have h1 := hs
        rw [deliver_cons hq] at h1
        obtain ⟨x, hx, hdx⟩ := hd _ r.1 r.2 h1
        obtain ⟨k, hk⟩ := ihn hdx hx
        exact ⟨k + 1, by rw [delivers_succ (s1 := r.1) (k := r.2) hs]; exact hk⟩
    | cons x a ih =>
      cases hs : s.step c .deliver with
      | panic => exact ⟨1, by simp [St.delivers, hs]⟩
      | ok r =>
        have h1 := hs
        rw [deliver_cons hq] at h1
        obtain ⟨ls, h2, _⟩ := handle_level (s' := r.1) (k := r.2) h1
        obtain ⟨k, hk⟩ := ih (s := r.1) (b ++ ls) (by rw [h2]; simp)
        exact ⟨k + 1, by rw [delivers_succ (s1 := r.1) (k := r.2) hs]; exact hk⟩

/-- A frame leads to what the LLC pushes for it. -/
theorem doom_frame {c : Cfg} {n : Nat} {addr : Addr} {ts : Nat} {pdu : List Bool} {x : Letter}
    (hx : x ∈ upward addr ts pdu ++ upwardU addr ts pdu) (hd : Doom c n x) : Doom c (n + 1) (.frame addr ts pdu) := by
  intro s s' k h
  obtain ⟨l, es, h1, rfl, rfl⟩ := callLlc_ok h
  exact ⟨x, by simp only [ind_up h1]; exact List.mem_append_right _ hx, hd⟩

/-- So does a message of a protocol: to what MLE pushes for it. -/
theorem doom_mle {c : Cfg} {n : Nat} {addr : Addr} {link ts d : Nat} {dd : Mle.Disc} (hdd : Mle.Disc.ofRaw d = some dd) (h8 : d < 8) {msg : List Bool}
    (hx : ∀ (s s' : Mle) (out : List Mle.Out), s.dispatch addr link ts msg dd = .ok (s', out) → ∃ x ∈ out.map ofMle, Doom c n x) :
    Doom c (n + 1) (.mle (.dataInd addr link ts (some (toBits 3 d ++ msg)))) := by
  intro s s' k h
  obtain ⟨m, out, h1, rfl, rfl⟩ := callMle_ok h
  simp only [Mle.Mle.rx, Mle.Mle.dataInd] at h1
  rw [if_neg (by simp)] at h1
  rw [List.take_append_of_le_length (by simp), List.drop_append_of_le_length (by simp), List.take_of_length_le (by simp),
    List.drop_eq_nil_of_le (by simp), List.nil_append, ofBits_toBits (n := 3) (by simpa using h8), hdd] at h1
  obtain ⟨x, h2, h3⟩ := hx _ _ _ h1
  exact ⟨x, List.mem_append_right _ h2, h3⟩

theorem upward_mem {addr : Addr} {ts : Nat} {pdu : List Bool} {d : Nat} {msg : List Bool} (h : Carries pdu d msg) :
    Letter.mle (.dataInd addr (Llc.linkOf ts) ts (some (toBits 3 d ++ msg))) ∈ upward addr ts pdu ++ upwardU addr ts pdu := by
  have hs := (sduOf_iff _ _).2 h.2
  have : toBits 3 d ++ msg ≠ [] := by
    intro h
    have := congrArg List.length h
    simp at this
  simp [upward, hs, this]

theorem doom_mm {c : Cfg} {addr : Addr} {ts : Nat} {pdu msg : List Bool} (h : Carries pdu 1 msg)
    (ha : ∀ (s : Mm) (handle issi : Nat), s.rx c.brew handle issi msg = .panic) : Doom c 2 (.frame addr ts pdu) := by
  refine doom_frame (upward_mem h) (doom_mle (dd := .mm) rfl (by decide) ?_)
  intro s s' out h
  simp only [Mle.Mle.dispatch, Res.bind_eq_ok] at h
  obtain ⟨r, _, h⟩ := h
  cases h
  exact ⟨_, by simp [ofMle]; rfl, fun s => by simp [St.handle, St.callMm, ha]⟩

theorem doom_cmce {c : Cfg} {addr : Addr} {ts : Nat} {pdu msg : List Bool} (h : Carries pdu 2 msg)
    (ha : ∀ (s : Bs) (v : SdsView) (ssi : Nat), s.step v (.mobile ssi msg) = .panic) : Doom c 2 (.frame addr ts pdu) := by
  refine doom_frame (upward_mem h) (doom_mle (dd := .cmce) rfl (by decide) ?_)
  intro s s' out h
  simp only [Mle.Mle.dispatch, Res.bind_eq_ok] at h
  obtain ⟨r, _, h⟩ := h
  cases h
  exact ⟨_, by simp [ofMle]; rfl, fun s => by simp [St.handle, St.callBs, ha]⟩

theorem doom_bare {c : Cfg} {addr : Addr} {ts : Nat} {pdu body : List Bool} {k : Llc.Kind} {ns nr : Option Bool} (hk : Llc.kindOf pdu = some k)
    (hko : k ≠ .other) (hka : k ≠ .advanced) (hp : Llc.parseBl k pdu = some (true, ns, nr, body)) (hl : body.length = 32) : Doom c 0 (.frame addr ts pdu) := by
  intro s
  have : s.llc.step (.ind addr ts pdu) = .panic := by
    simp only [Llc.Llc.step, Llc.Llc.unitdataInd, hk]
    cases k <;> simp_all [Llc.Llc.rxBl, Llc.fcsGood, Llc.fcsOk]
  simp [St.handle, St.callLlc, this]

theorem fatal_doom {c : Cfg} {pdu : List Bool} (h : Fatal pdu) (addr : Addr) (ts : Nat) : ∃ n, Doom c n (.frame addr ts pdu) := by
  have udata : ∀ {sdu}, unitdata pdu = some sdu → ∃ n, Doom c n (.frame addr ts pdu) := by
    intro sdu hu
    refine ⟨1, doom_frame (n := 0) (x := .mle (.unitdataInd addr (Llc.linkOf ts) ts (if sdu = [] then none else some sdu))) ?_ ?_⟩
    · simp [upwardU, hu]
    · intro s; rfl
  have empty : sduOf pdu = some [] → ∃ n, Doom c n (.frame addr ts pdu) := by
    intro hu
    refine ⟨1, doom_frame (n := 0) (x := .mle (.dataInd addr (Llc.linkOf ts) ts none)) ?_ ?_⟩
    · simp [upward, hu]
    · intro s; rfl
  cases h with
  | type13 => exact ⟨0, fun s => rfl⟩
  | type14 => exact ⟨0, fun s => rfl⟩
  | bareAdata nr ns fcs hl =>
    refine ⟨0, doom_bare (k := .adata) (ns := some ns) (nr := some nr) (body := fcs) rfl (by simp) (by simp) ?_ hl⟩
    simp [Llc.parseBl, Llc.BlAdata.dec, Llc.rdHead_run]
  | bareData ns fcs hl =>
    refine ⟨0, doom_bare (k := .data) (ns := some ns) (nr := none) (body := fcs) rfl (by simp) (by simp) ?_ hl⟩
    simp [Llc.parseBl, Llc.BlData.dec, Llc.rdHead_run]
  | bareUdata fcs hl =>
    refine ⟨0, doom_bare (k := .udata) (ns := none) (nr := none) (body := fcs) rfl (by simp) (by simp) ?_ hl⟩
    simp [Llc.parseBl, Llc.BlUdata.dec, Llc.rdHead_run]
  | bareAck nr fcs hl =>
    refine ⟨0, doom_bare (k := .ack) (ns := none) (nr := some nr) (body := fcs) rfl (by simp) (by simp) ?_ hl⟩
    simp [Llc.parseBl, Llc.BlAck.dec, Llc.rdHead_run]
  | unitdata sdu => exact udata rfl
  | unitdataFcs bits hb => exact udata (sdu := bits) (by simp [unitdata, (endsFcs_iff _).2 hb])
  | emptyData => exact empty rfl
  | emptyAdata => exact empty rfl
  | @packet pdu msg hc =>
    refine ⟨2, doom_frame (upward_mem hc) (doom_mle (dd := .sndcp) rfl (by decide) ?_)⟩
    intro s s' out h
    simp only [Mle.Mle.dispatch] at h
    cases h
    exact ⟨_, by simp [ofMle]; rfl, fun s => rfl⟩
  | mm hc hb => exact ⟨2, doom_mm hc fun s _ _ => Mm.rx_breaks s hb⟩
  | cmce hc hb => exact ⟨2, doom_cmce hc fun _ _ _ => Cmce.step_breaks hb⟩

/-- **C71, the fatal frames.** Whatever the state, whoever sent it: once the upper MAC has pushed a fatal frame, finitely many
deliveries later an entity aborts. -/
theorem c71_fatal (c : Cfg) {pdu : List Bool} (h : Fatal pdu) (s : St) (addr : Addr) (ts : Nat) :
    ∃ s' k n, s.step c (.frame addr ts pdu) = .ok (s', k) ∧ s'.delivers c n = .panic := by
  obtain ⟨m, hm⟩ := fatal_doom (c := c) h addr ts
  obtain ⟨n, hn⟩ := doom_aborts (c := c) m hm (s := { s with queue := s.queue ++ [.frame addr ts pdu] }) (by simp)
  exact ⟨_, _, n, rfl, hn⟩

/-- **C71, exactly.** After a harmless history a further frame of a mobile leads to an abort if and only if it is a fatal one. -/
theorem c71_frame_iff {c : Cfg} {evs : List Ev} {tr : List Call} {s : St} (h : Run c evs tr s) (hfine : ∀ e ∈ evs, e.Fine c)
    (hn : (frames evs).length + 2 < 2 ^ 32) {addr : Addr} (ha : addr.ssi < 2 ^ 24 ∧ addr.ssiType ≠ .gssi) (ts : Nat) (pdu : List Bool) :
    (∃ s' k n, s.step c (.frame addr ts pdu) = .ok (s', k) ∧ s'.delivers c n = .panic) ↔ Fatal pdu := by
  refine ⟨fun ⟨s', k, n, h1, h2⟩ => Classical.byContradiction fun hf => ?_, fun hf => c71_fatal c hf s addr ts⟩
  obtain ⟨s2, h3⟩ := fine_delivers (h.step h1) (by
      intro e he
      rcases List.mem_append.1 he with he | he
      · exact hfine e he
      · rw [List.mem_singleton.1 he]; exact ⟨ha.1, ha.2, hf⟩) (by
      rw [frames_append, List.length_append]
      simp only [frames, List.filterMap_cons, List.filterMap_nil, List.length_cons, List.length_nil] at hn ⊢
      omega) n
  rw [h2] at h3; cases h3

theorem doom_frame_aborts {c : Cfg} {n : Nat} {pdu : List Bool} {addr : Addr} {ts : Nat} (h : Doom c n (.frame addr ts pdu)) (s : St) :
    ∃ s' k m, s.step c (.frame addr ts pdu) = .ok (s', k) ∧ s'.delivers c m = .panic := by
  obtain ⟨m, hm⟩ := doom_aborts (c := c) n h (s := { s with queue := s.queue ++ [.frame addr ts pdu] }) (by simp)
  exact ⟨_, _, m, rfl, hm⟩

/-- **Finding (C71).** One frame of any station, registered or not, with a group report whose element is too short aborts the base station. -/
theorem c71_mm_aborts (c : Cfg) (s : St) (addr : Addr) (ts : Nat) (ns : Bool) :
    ∃ s' k n, s.step c (.frame addr ts ([false, false, false, true, ns] ++ (toBits 3 1 ++
      (toBits 4 7 ++ [false, false] ++ [true] ++ [true] ++ toBits 4 8 ++ toBits 11 0 ++ toBits 6 0)))) = .ok (s', k) ∧ s'.delivers c n = .panic :=
  doom_frame_aborts (doom_mm ⟨by decide, .data ns _⟩ fun m h i => Mm.c53_mm_aborts c.brew m h i) s

/-- **Finding (C71).** So does one with a status message of value 31743 to any number. -/
theorem c71_status_aborts (c : Cfg) (s : St) (addr : Addr) (ts : Nat) (ns : Bool) (area dest : Nat) (ha : area < 2 ^ 4) (hd : dest < 2 ^ 24)
    (rest : List Bool) : ∃ s' k n, s.step c (.frame addr ts ([false, false, false, true, ns] ++ (toBits 3 2 ++
      (toBits 5 8 ++ (toBits 4 area ++ (toBits 2 1 ++ (toBits 24 dest ++ (toBits 16 31743 ++ rest)))))))) = .ok (s', k) ∧ s'.delivers c n = .panic := by
  refine doom_frame_aborts (doom_cmce ⟨by decide, .data ns _⟩ fun m v i => ?_) s
  have h5 : ∀ r, Cmce.uplink i (toBits 5 8 ++ r) = .ok .status := by
    intro r
    unfold Cmce.uplink
    rw [if_neg (by simp), List.take_append_of_le_length (by simp), List.take_of_length_le (by simp), ofBits_toBits (n := 5) (by decide)]
    rfl
  simp [Cmce.Bs.step, h5, Cmce.c39_status_abort v i area dest ha hd rest]

/-- **Finding (C71).** Packet data, which every TETRA station may ask for, aborts the base station, whatever the message. -/
theorem c71_packet_data_aborts (c : Cfg) (s : St) (addr : Addr) (ts : Nat) (ns : Bool) (msg : List Bool) :
    ∃ s' k n, s.step c (.frame addr ts ([false, false, false, true, ns] ++ (toBits 3 4 ++ msg))) = .ok (s', k) ∧ s'.delivers c n = .panic :=
  c71_fatal c (.packet ⟨by decide, .data ns _⟩) s addr ts

/-- **Finding (C71).** So does every message in unacknowledged mode. -/
theorem c71_unacknowledged_aborts (c : Cfg) (s : St) (addr : Addr) (ts : Nat) (sdu : List Bool) :
    ∃ s' k n, s.step c (.frame addr ts ([false, false, true, false] ++ sdu)) = .ok (s', k) ∧ s'.delivers c n = .panic :=
  c71_fatal c (.unitdata sdu) s addr ts

/-! ## The numbers of MLE -/

/-- A frame with an empty message for mobility management. -/
def emptyMm : List Bool := [false, false, false, true, false] ++ (toBits 3 1 ++ [])

theorem emptyMm_carries : Carries emptyMm 1 [] := ⟨by decide, .data _ _⟩

/-- It does no harm. -/
theorem emptyMm_fine : ¬ Fatal emptyMm := by
  have key : emptyMm = [false, false, false, true, false, false, false, true] := by decide
  intro h
  rw [key] at h
  generalize hp : [false, false, false, true, false, false, false, true] = pdu at h
  cases h with
  | packet hc =>
    rw [← hp, ← key] at hc
    exact absurd (carries_unique hc emptyMm_carries).1 (by decide)
  | mm hc hb =>
    rw [← hp, ← key] at hc
    obtain ⟨_, rfl⟩ := carries_unique hc emptyMm_carries
    exact absurd hb.1 (by decide)
  | cmce hc =>
    rw [← hp, ← key] at hc
    exact absurd (carries_unique hc emptyMm_carries).1 (by decide)
  | _ => simp at hp

/-- A message too many. -/
theorem last_number {c : Cfg} {s : St} (hq : s.queue = []) (hn : s.mle.next + 1 = 2 ^ 32) {pdu msg : List Bool} {d : Nat} (hc : Carries pdu d msg)
    (hd : d = 1 ∨ d = 2) (addr : Addr) (ts : Nat) : ∃ s' k, s.step c (.frame addr ts pdu) = .ok (s', k) ∧ s'.delivers c 2 = .panic := by
  refine ⟨_, _, rfl, ?_⟩
  simp only [St.delivers]
  rw [deliver_cons (by simp [hq]; exact ⟨rfl, rfl⟩)]
  cases h1 : St.handle c { s with queue := [] } (.frame addr ts pdu) with
  | panic => simp only [St.handle] at h1 ⊢; simp [h1]
  | ok r =>
    obtain ⟨l, es, h2, h3, _⟩ := callLlc_ok (s' := r.1) (k := r.2) h1
    have hu : upwardU addr ts pdu = [] := by
      have := (sduOf_iff _ _).2 hc.2
      unfold upwardU
      split
      · rename_i sdu hs
        unfold unitdata at hs
        split at hs <;> simp [sduOf] at this <;> cases hs
      · rfl
    have hup : upward addr ts pdu = [.mle (.dataInd addr (Llc.linkOf ts) ts (some (toBits 3 d ++ msg)))] := by
      have hs := (sduOf_iff _ _).2 hc.2
      have : toBits 3 d ++ msg ≠ [] := by
        intro h
        have := congrArg List.length h
        simp at this
      simp [upward, hs, this]
    rw [ind_up h2, hup, hu] at h3
    have hm : ∀ q, (St.handle c { r.1 with queue := q } (.mle (.dataInd addr (Llc.linkOf ts) ts (some (toBits 3 d ++ msg))))) = .panic := by
      intro q
      have hn' : ¬ s.mle.next + 1 < 2 ^ 32 := by omega
      have hr : s.mle.rx (.dataInd addr (Llc.linkOf ts) ts (some (toBits 3 d ++ msg))) = .panic := by
        simp only [Mle.Mle.rx, Mle.Mle.dataInd]
        rw [if_neg (by simp), List.take_append_of_le_length (by simp), List.take_of_length_le (by simp), ofBits_toBits (n := 3) (by omega)]
        rcases hd with rfl | rfl <;> simp only [Mle.Disc.ofRaw, Mle.Mle.dispatch, Mle.Mle.createHandle, if_neg hn'] <;> rfl
      rw [h3]
      simp only [St.handle, St.callMle]
      rw [hr]; rfl
    have hq' : r.1.queue = [.mle (.dataInd addr (Llc.linkOf ts) ts (some (toBits 3 d ++ msg)))] := by rw [h3]; rfl
    have h1' : St.handle c { s with queue := [] } (.frame addr ts pdu) = .ok r := h1
    have e2 : r.1.step c .deliver = .panic := (deliver_cons hq').trans (hm [])
    simp only [h1', Res.bind_ok, e2]
    rfl

/-- **Finding (C71).** MLE numbers the messages it hands on and aborts after 2^32 - 2 of them, however harmless they are. -/
theorem c71_numbers_finding (c : Cfg) : ∃ evs tr s, Run c evs tr s ∧ (∀ e ∈ evs, e.Fine c) ∧ s.queue = [] ∧
    ∀ addr ts pdu d msg, Carries pdu d msg → d = 1 ∨ d = 2 →
      ∃ s' k, s.step c (.frame addr ts pdu) = .ok (s', k) ∧ s'.delivers c 2 = .panic := by
  have main : ∀ N, N + 1 < 2 ^ 32 → ∃ evs tr s, Run c evs tr s ∧ (∀ e ∈ evs, e.Fine c) ∧ s.queue = [] ∧ s.mle.next = 1 + N := by
    intro N hN
    let a : Addr := ⟨1001, .issi, false⟩
    have hfr : frames (List.replicate N (.frame a 1 emptyMm)) = List.replicate N (a, 1, emptyMm) := by
      simp [frames]
    have hfine : ∀ e ∈ List.replicate N (Ev.frame a 1 emptyMm), e.Fine c := by
      intro e he
      rw [List.eq_of_mem_replicate he]
      exact ⟨by decide, by decide, emptyMm_fine⟩
    have hlen : (frames (List.replicate N (.frame a 1 emptyMm))).length + 1 < 2 ^ 32 := by
      rw [hfr, List.length_replicate]; exact hN
    obtain ⟨tr, s, h⟩ := c71_runs_partial c _ hfine hlen
    obtain ⟨n, tr', s', h1, h2, h3⟩ := c70_all_heard_partial h hfine hlen
    refine ⟨_, tr', s', h1, ?_, h2, ?_⟩
    · intro e he
      rcases List.mem_append.1 he with he | he
      · exact hfine e he
      · rw [List.eq_of_mem_replicate he]; trivial
    · have h4 := next_inv h1
      have h5 := congrArg List.length (sends_unique h3)
      rw [hfr] at h5
      have h6 : messageOf a 1 emptyMm = some ⟨1, a.ssi, 1, []⟩ := by decide
      rw [h2] at h4
      have h7 : ((List.replicate N (a, 1, emptyMm)).filterMap fun f => messageOf f.1 f.2.1 f.2.2).length = N := by
        rw [List.filterMap_replicate_of_some (a := (a, 1, emptyMm)) h6, List.length_replicate]
      rw [h4, h5, h7]
      rfl
  obtain ⟨evs, tr, s, h1, h2, h3, h4⟩ := main (2 ^ 32 - 2) (by omega)
  exact ⟨evs, tr, s, h1, h2, h3, fun addr ts pdu d msg hc hd => last_number h3 (by omega) hc hd addr ts⟩

end Verif.Sig
