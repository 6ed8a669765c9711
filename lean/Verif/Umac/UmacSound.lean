import Verif.Umac.UmacLog
import Verif.Umac.OrderRange
import Verif.Umac.UmacTotal
import Verif.Umac.SchedSlotProps
import Verif.Umac.SchedLiveProps
/-!
# The upper MAC stays within the limits of its scheduler: lemmas
-/
namespace Verif.Umac
open Verif.Tdma Verif.Codec

/-- What is given to the upper MAC is within the limits of the scheduler: blocks with a time which exists, voice with all its bits, orders
of call control as they are. -/
def UmacEv.Kept : UmacEv → Prop
  | .block c _ => c.x.valid
  | .voiceDown _ b => 35 ≤ b.length
  | .control m => m.InRange
  | _ => True

theorem pushed_range {s s' : Sched} {t : Nat} {el : DlElem} (h : s.push t el = .ok s') : 1 ≤ t ∧ t ≤ 4 := by
  unfold Sched.push at h
  rw [Out.bind_eq_ok] at h; obtain ⟨i, hi, _⟩ := h
  rw [Out.ofRes_eq_ok] at hi
  have := Slots.idx_ok.1 hi
  omega

theorem packVoice_length {data : List Nat} {b : Block} (h : packVoice data = some b) : b.length = 35 := by
  unfold packVoice at h
  split at h
  · cases h; assumption
  · split at h
    · cases h
    · cases h; simp

theorem capReq_code {u : UlTable} {cur : Time} {t ssi code : Nat} {r : UlTable × Option SlotGrant} (h : processCapReq u cur t ssi code = .ok r) :
    code ≤ 14 := by
  unfold processCapReq at h
  split at h
  · omega
  · rw [Res.bind_eq_ok] at h; obtain ⟨n, hn, _⟩ := h
    unfold reqSlots at hn
    split at hn <;> first | omega | cases hn

theorem ran_each {s s' : Sched} {es : List SchedEv} {tr : List (SchedEv × SchedRet)} (h : s.run es = .ok (s', tr)) :
    ∀ e ∈ es, ∃ (s1 : Sched) (r : Sched × SchedRet), s1.step e = .ok r := by
  induction es generalizing s tr with
  | nil => simp
  | cons e es ih =>
    obtain ⟨a, tr', c1, c2, _⟩ := srun_cons h
    intro e' he'
    rcases List.mem_cons.1 he' with rfl | he'
    · exact ⟨_, _, c1⟩
    · exact ih c2 e' he'

theorem step_sound {s s' : UmacBs} {e : UmacEv} {out : List UmacOut} (he : e.Kept) (h : s.step e = .ok (s', out)) :
    ∃ cs, s'.log = s.log ++ cs ∧ ∀ p ∈ cs, p.1.Sound := by
  obtain ⟨cs, fs, v, hc⟩ := step_via h
  refine ⟨cs, v.log, fun p hp => ?_⟩
  have hm : p.1 ∈ cs.map Prod.fst := List.mem_map_of_mem hp
  obtain ⟨s1, r, h1⟩ := ran_each v.run _ hm
  generalize p.1 = y at hm h1
  cases y with
  | tick => trivial
  | hang => trivial
  | systemWide => trivial
  | capReq t ssi code =>
    have ht : e.Timed := by cases e <;> first | trivial | exact he
    obtain ⟨h2, h3⟩ := caused_capReq ht hc hm
    simp only [Sched.step] at h1
    rw [Out.bind_eq_ok] at h1; obtain ⟨q, hq, _⟩ := h1
    rw [Out.ofRes_eq_ok] at hq
    exact ⟨h2, h3, capReq_code hq⟩
  | grant t a g => simp only [Sched.step] at h1; rw [Out.bind_eq_ok] at h1; obtain ⟨q, hq, _⟩ := h1; exact pushed_range hq
  | ack t a => simp only [Sched.step] at h1; rw [Out.bind_eq_ok] at h1; obtain ⟨q, hq, _⟩ := h1; exact pushed_range hq
  | message t i rp p' sdu => simp only [Sched.step] at h1; rw [Out.bind_eq_ok] at h1; obtain ⟨q, hq, _⟩ := h1; exact pushed_range hq
  | steal t i rp b => simp only [Sched.step] at h1; rw [Out.bind_eq_ok] at h1; obtain ⟨q, hq, _⟩ := h1; exact pushed_range hq
  | takeRa t ssi =>
    simp only [Sched.step, Sched.takeRa] at h1
    rw [Out.bind_eq_ok] at h1; obtain ⟨q, hq, _⟩ := h1
    rw [Out.bind_eq_ok] at hq; obtain ⟨i, hi, _⟩ := hq
    rw [Out.ofRes_eq_ok] at hi
    have := Slots.idx_ok.1 hi
    exact ⟨by omega, by omega⟩
  | voice t b =>
    have hb : 35 ≤ b.length := by
      cases e with
      | tick w => rw [hc] at hm; split at hm <;> simp at hm
      | block c bits => exact (hc _ hm).elim
      | request q => rcases hc with ⟨ts, b, _, hc⟩ | ⟨p, _, hc⟩ <;> rw [hc] at hm <;> simp at hm
      | voiceDown ts b' =>
        rcases hc with hc | hc <;> rw [hc] at hm <;> simp at hm
        rw [hm.2]; exact he
      | voiceUp ts data =>
        rcases hc with hc | ⟨b', hb', hc⟩ <;> rw [hc] at hm <;> simp at hm
        rw [hm.2, packVoice_length hb']; exact Nat.le_refl _
      | control m =>
        cases m with
        | «open» c =>
          obtain ⟨k, hc⟩ := hc
          rw [hc] at hm
          simp only [List.mem_flatMap] at hm
          obtain ⟨d, _, hm⟩ := hm
          rcases List.mem_append.1 hm with hm | hm
          · split at hm <;> simp at hm
          · simp at hm
        | close d ts => rw [hc] at hm; simp at hm
        | released ts => rw [hc] at hm; simp at hm
        | granted ts => rw [hc] at hm; simp at hm
        | ended ts => rw [hc] at hm; simp at hm
    simp only [Sched.step, CircuitMgr.putBlock] at h1
    rw [Out.bind_eq_ok] at h1; obtain ⟨q, hq, _⟩ := h1
    rw [Out.ofRes_eq_ok, Res.bind_eq_ok] at hq; obtain ⟨i, hi, _⟩ := hq
    have := Slots.idx_ok.1 hi
    exact ⟨by omega, by omega, hb⟩
  | create d c =>
    cases e with
    | tick w => rw [hc] at hm; split at hm <;> simp at hm
    | block c bits => exact (hc _ hm).elim
    | request q => rcases hc with ⟨ts, b, _, hc⟩ | ⟨p, _, hc⟩ <;> rw [hc] at hm <;> simp at hm
    | voiceDown ts b' => rcases hc with hc | hc <;> rw [hc] at hm <;> simp at hm
    | voiceUp ts data => rcases hc with hc | ⟨b', hb', hc⟩ <;> rw [hc] at hm <;> simp at hm
    | control m =>
      cases m with
      | «open» c' =>
        obtain ⟨k, hc⟩ := hc
        obtain ⟨e1, e2, e3, e4, e5⟩ := he
        rw [hc, e1] at hm
        simp only [Dir.split, List.mem_flatMap, List.mem_cons, List.not_mem_nil, or_false] at hm
        obtain ⟨d', hd', hm⟩ := hm
        rcases List.mem_append.1 hm with hm | hm
        · split at hm <;> simp at hm
        · simp only [List.mem_singleton, SchedEv.create.injEq] at hm
          obtain ⟨rfl, rfl⟩ := hm
          exact ⟨hd', e2, e3, e4, by simp only; omega⟩
      | close d ts => rw [hc] at hm; simp at hm
      | released ts => rw [hc] at hm; simp at hm
      | granted ts => rw [hc] at hm; simp at hm
      | ended ts => rw [hc] at hm; simp at hm
  | close d t =>
    cases e with
    | tick w => rw [hc] at hm; split at hm <;> simp at hm
    | block c bits => exact (hc _ hm).elim
    | request q => rcases hc with ⟨ts, b, _, hc⟩ | ⟨p, _, hc⟩ <;> rw [hc] at hm <;> simp at hm
    | voiceDown ts b' => rcases hc with hc | hc <;> rw [hc] at hm <;> simp at hm
    | voiceUp ts data => rcases hc with hc | ⟨b', hb', hc⟩ <;> rw [hc] at hm <;> simp at hm
    | control m =>
      cases m with
      | «open» c' =>
        obtain ⟨k, hc⟩ := hc
        obtain ⟨e1, e2, e3, e4, e5⟩ := he
        rw [hc, e1] at hm
        simp only [Dir.split, List.mem_flatMap, List.mem_cons, List.not_mem_nil, or_false] at hm
        obtain ⟨d', hd', hm⟩ := hm
        rcases List.mem_append.1 hm with hm | hm
        · split at hm
          · simp only [List.mem_singleton, SchedEv.close.injEq] at hm
            obtain ⟨rfl, rfl⟩ := hm
            exact ⟨hd', by omega, e3⟩
          · simp at hm
        · simp at hm
      | close d' ts =>
        obtain ⟨e1, e2, e3⟩ := he
        rw [hc, e1] at hm
        simp only [Dir.split, List.map_cons, List.map_nil, List.mem_cons, List.not_mem_nil, or_false, SchedEv.close.injEq] at hm
        rcases hm with ⟨rfl, rfl⟩ | ⟨rfl, rfl⟩
        · exact ⟨.inl rfl, by omega, e3⟩
        · exact ⟨.inr rfl, by omega, e3⟩
      | released ts => rw [hc] at hm; simp at hm
      | granted ts => rw [hc] at hm; simp at hm
      | ended ts => rw [hc] at hm; simp at hm

/-- In any history of the upper MAC in which what it is given is within the limits, so is what it gives its scheduler. -/
theorem run_sound {s0 s : UmacBs} {h : List (UmacEv × List UmacOut)} (hr : UmacRun s0 h s) (h0 : s0.log = []) (hk : ∀ p ∈ h, p.1.Kept) :
    ∀ e ∈ s.log.map Prod.fst, e.Sound := by
  induction hr with
  | init => simp [h0]
  | step _ hst ih =>
    obtain ⟨cs, h1, h2⟩ := step_sound (hk _ (List.mem_append_right _ (List.mem_singleton.2 rfl))) hst
    intro e he
    rw [h1, List.map_append] at he
    rcases List.mem_append.1 he with he | he
    · exact ih (fun p hp => hk p (List.mem_append_left _ hp)) e he
    · obtain ⟨p, hp, rfl⟩ := List.mem_map.1 he
      exact h2 p hp

/-- The main timeslot has no hang time. -/
theorem step_hang {s s' : UmacBs} {e : UmacEv} {out : List UmacOut} (he : e.Kept) (h : s.step e = .ok (s', out)) :
    ∃ cs, s'.log = s.log ++ cs ∧ ∀ t b, .hang t b ∈ cs.map Prod.fst → 2 ≤ t := by
  obtain ⟨cs, fs, v, hc⟩ := step_via h
  refine ⟨cs, v.log, fun t b hm => ?_⟩
  generalize cs.map Prod.fst = es at hc hm
  cases e with
  | tick w =>
    simp only [Caused] at hc
    rw [hc] at hm
    split at hm <;> simp at hm
  | block c b' =>
    have := hc _ hm
    simp [RxCall] at this
  | request q =>
    rcases hc with ⟨_, _, _, rfl⟩ | ⟨_, _, rfl⟩ <;> simp at hm
  | voiceDown ts b' => rcases hc with rfl | rfl <;> simp at hm
  | voiceUp ts d => rcases hc with rfl | ⟨_, _, rfl⟩ <;> simp at hm
  | control m =>
    cases m with
    | «open» c =>
      obtain ⟨k, rfl⟩ := hc
      simp only [List.mem_flatMap, List.mem_append] at hm
      obtain ⟨d, _, hm | hm⟩ := hm
      · split at hm <;> simp at hm
      · simp at hm
    | close d ts =>
      simp only [Caused] at hc
      rw [hc] at hm
      simp at hm
    | released ts => simp only [Caused] at hc; rw [hc] at hm; simp at hm; obtain ⟨rfl, _⟩ := hm; exact he.1
    | granted ts => simp only [Caused] at hc; rw [hc] at hm; simp at hm; obtain ⟨rfl, _⟩ := hm; exact he.1
    | ended ts => simp only [Caused] at hc; rw [hc] at hm; simp at hm; obtain ⟨rfl, _⟩ := hm; exact he.1

theorem run_hang {s0 s : UmacBs} {h : List (UmacEv × List UmacOut)} (hr : UmacRun s0 h s) (h0 : s0.log = []) (hk : ∀ p ∈ h, p.1.Kept) :
    ∀ t b, .hang t b ∈ s.log.map Prod.fst → 2 ≤ t := by
  induction hr with
  | init => simp [h0]
  | step _ hst ih =>
    obtain ⟨cs, h1, h2⟩ := step_hang (hk _ (List.mem_append_right _ (List.mem_singleton.2 rfl))) hst
    intro t b he
    rw [h1, List.map_append] at he
    rcases List.mem_append.1 he with he | he
    · exact ih (fun p hp => hk p (List.mem_append_left _ hp)) t b he
    · exact h2 t b he

/-! ## Nothing aborts -/

theorem call_ok {s : UmacBs} {e : SchedEv} (h : ∃ r, s.sched.step e = .ok r) : ∃ r, s.call e = .ok r := by
  obtain ⟨r, hr⟩ := h
  unfold UmacBs.call
  rw [hr]
  exact ⟨_, rfl⟩

theorem idx_range {t : Nat} (h1 : 1 ≤ t) (h4 : t ≤ 4) : ∃ i, Slots.idx t = .ok i := ⟨⟨t - 1, by omega⟩, Slots.idx_ok.2 (by simp; omega)⟩

/-- The scheduler takes every call within its limits other than a tick or a request for slots. -/
theorem quiet_total (s : Sched) {e : SchedEv} (hs : e.Sound) (h0 : e ≠ .tick) (h1 : ∀ t ssi code, e ≠ .capReq t ssi code) : ∃ r, s.step e = .ok r := by
  cases e with
  | tick => exact absurd rfl h0
  | capReq t ssi code => exact absurd rfl (h1 _ _ _)
  | grant t a g => obtain ⟨_, _, e⟩ := push_total (s := s) hs.1 hs.2 (.grant a g); exact ⟨_, by simp only [Sched.step, e, Out.bind_ok]; rfl⟩
  | ack t a => obtain ⟨_, _, e⟩ := push_total (s := s) hs.1 hs.2 (.ack a); exact ⟨_, by simp only [Sched.step, e, Out.bind_ok]; rfl⟩
  | message t i rp p sdu =>
    obtain ⟨_, _, e⟩ := push_total (s := s) hs.1 hs.2 (.resource p sdu (.msg i rp)); exact ⟨_, by simp only [Sched.step, e, Out.bind_ok]; rfl⟩
  | steal t i rp b =>
    obtain ⟨_, _, e⟩ := push_total (s := s) hs.1 hs.2 (.stealing b (.msg i rp)); exact ⟨_, by simp only [Sched.step, e, Out.bind_ok]; rfl⟩
  | takeRa t ssi =>
    obtain ⟨i, hi⟩ := idx_range hs.1 hs.2
    simp only [Sched.step, Sched.takeRa, hi, Out.ofRes_ok, Out.bind_ok]
    exact ⟨_, rfl⟩
  | voice t b =>
    obtain ⟨i, hi⟩ := idx_range hs.1 hs.2.1
    simp only [Sched.step, CircuitMgr.putBlock, hi, Res.bind_ok]
    split
    · exact ⟨_, rfl⟩
    · exact ⟨_, rfl⟩
  | create d c =>
    obtain ⟨hd, h1, h2, _⟩ := hs
    obtain ⟨i, hi⟩ := idx_range (by omega) h2
    simp only [Sched.step, create_eq, CircuitMgr.place, hi, Res.bind_ok]
    rcases hd with rfl | rfl
    · exact ⟨_, rfl⟩
    · exact ⟨_, rfl⟩
  | close d t =>
    obtain ⟨hd, h1, h2⟩ := hs
    obtain ⟨i, hi⟩ := idx_range h1 h2
    rcases hd with rfl | rfl
    · simp only [Sched.step, CircuitMgr.close, hi, Res.bind_ok, Out.ofRes_ok, Out.bind_ok]
      exact ⟨_, rfl⟩
    · simp only [Sched.step, CircuitMgr.close, hi, Res.bind_ok, Out.ofRes_ok, Out.bind_ok]
      exact ⟨_, rfl⟩
  | hang t b => exact ⟨_, rfl⟩
  | systemWide b => exact ⟨_, rfl⟩

theorem stealTs_range {s : UmacBs} {chan : Option ChanReq} {ts : Nat} (h : s.stealTs chan = some ts) : 1 ≤ ts ∧ ts ≤ 4 := by
  unfold UmacBs.stealTs at h
  cases chan with
  | none =>
    simp only at h
    repeat' split at h
    all_goals first | (cases h; omega) | cases h
  | some r =>
    obtain ⟨u, a, b, c, d, k, l⟩ := r
    cases a <;> cases b <;> cases c <;> cases d <;> simp at h <;> repeat' split at h
    all_goals first | omega | (cases h; omega) | (cases h)

theorem updateLen_ok {p : MacResource} {m : Nat} (h : p.headerLen = .ok m) (n : Nat) : ∃ r, p.updateLen n = .ok r := by
  unfold MacResource.updateLen
  rw [h]
  simp only [Out.bind_ok]
  exact ⟨_, rfl⟩

/-- A request on a timeslot which exists is taken, unless it is to be put into a half slot into which it does not fit. -/
theorem request_total (s : UmacBs) {q : TmaReq} (h1 : 1 ≤ q.x.t) (h4 : q.x.t ≤ 4) (hc : ∀ r, q.chan = some r → r.ulDl ≠ 0)
    (hs : q.steal = true → (s.stealTs q.chan).isSome = true → ∀ ra, ∃ b, stolenBlock ra q.addr (q.chan.bind (·.usage)) q.sdu = .ok b) :
    ∃ s', s.request q = .ok s' := by
  unfold UmacBs.request
  split
  · rename_i ts hts
    have hst : q.steal = true := by
      cases hq : q.steal
      · rw [hq] at hts; cases hts
      · rfl
    rw [hst, if_pos rfl] at hts
    obtain ⟨t1, t4⟩ := stealTs_range hts
    obtain ⟨r, hr⟩ := call_ok (s := s) (quiet_total s.sched (e := .takeRa ts q.addr.ssi) ⟨t1, t4⟩ (by simp) (by simp))
    rw [hr, Out.bind_ok]
    obtain ⟨b, hb⟩ := hs hst (by rw [hts]; rfl) (r.2 == .bool true || q.addr.ssiType == .issi)
    rw [hb, Out.bind_ok]
    obtain ⟨r', hr'⟩ := call_ok (s := r.1) (quiet_total r.1.sched (e := .steal ts q.id q.reported b) ⟨t1, t4⟩ (by simp) (by simp))
    rw [hr', Out.bind_ok]
    exact ⟨_, rfl⟩
  · unfold UmacBs.signal
    have hl : ∃ m, MacResource.headerLen ⟨false, 0, 0, decide (q.addr.ssiType ≠ .gssi), 0, some q.addr, none, q.chan.bind (·.usage), none, none,
        q.chan.map (·.toMac s.carrier)⟩ = .ok m := by
      unfold MacResource.headerLen
      split
      · exact ⟨_, rfl⟩
      · cases hq : q.chan with
        | none => exact ⟨_, rfl⟩
        | some r =>
          simp only [Option.map_some, MacResource.chanLen, ChanAlloc.computeLen, ChanReq.toMac, Option.isSome_none, Bool.false_eq_true, if_false,
            if_neg (hc r hq), Out.bind_ok]
          exact ⟨_, rfl⟩
    obtain ⟨m, hm⟩ := hl
    obtain ⟨p, hp⟩ := updateLen_ok hm q.sdu.length
    simp only
    rw [hp, Out.bind_ok]
    obtain ⟨r', hr'⟩ := call_ok (s := s) (quiet_total s.sched (e := .message q.x.t q.id q.reported p.1 q.sdu) ⟨h1, h4⟩ (by simp) (by simp))
    rw [hr', Out.bind_ok]
    exact ⟨_, rfl⟩

theorem isActive_total (m : CircuitMgr) {d : Dir} (hd : d = .dl ∨ d = .ul) {ts : Nat} (h1 : 1 ≤ ts) (h4 : ts ≤ 4) : ∃ b, m.isActive d ts = .ok b := by
  obtain ⟨i, hi⟩ := idx_range h1 h4
  unfold CircuitMgr.isActive
  rcases hd with rfl | rfl <;> rw [hi] <;> exact ⟨_, rfl⟩

theorem openOne_total (s : UmacBs) {c : Circuit} {d : Dir} (hd : d = .dl ∨ d = .ul) (h1 : 2 ≤ c.ts) (h4 : c.ts ≤ 4) (hu : 4 ≤ c.usage)
    (hu' : c.usage < 64) : ∃ s', s.openOne c d = .ok s' := by
  unfold UmacBs.openOne
  obtain ⟨b, hb⟩ := isActive_total s.sched.circuits hd (show 1 ≤ c.ts by omega) h4
  rw [hb, Out.ofRes_ok, Out.bind_ok]
  have fin : ∀ s1 : UmacBs, ∃ s', (do
      let r ← s1.call (.create d { c with direction := d }); .ok (if d = .ul then r.1.heard c.ts (some s1.now) else r.1)) = Out.ok s' := by
    intro s1
    obtain ⟨r, hr⟩ := call_ok (s := s1) (quiet_total s1.sched (e := .create d { c with direction := d }) ⟨hd, h1, h4, hu, by simp only; omega⟩ (by simp)
      (by simp))
    rw [hr, Out.bind_ok]
    exact ⟨_, rfl⟩
  cases b
  · exact fin s
  · obtain ⟨r, hr⟩ := call_ok (s := s) (quiet_total s.sched (e := .close d c.ts) ⟨hd, by omega, h4⟩ (by simp) (by simp))
    simp only [if_true]
    rw [hr, Out.bind_ok]
    exact fin r.1

theorem closeOne_total (s : UmacBs) {ts : Nat} {d : Dir} (hd : d = .dl ∨ d = .ul) (h1 : 1 ≤ ts) (h4 : ts ≤ 4) : ∃ s', s.closeOne ts d = .ok s' := by
  unfold UmacBs.closeOne
  obtain ⟨r, hr⟩ := call_ok (s := s) (quiet_total s.sched (e := .close d ts) ⟨hd, h1, h4⟩ (by simp) (by simp))
  rw [hr, Out.bind_ok]
  exact ⟨_, rfl⟩

/-- Orders of call control are carried out. -/
theorem control_total (s : UmacBs) {m : MacCtl} (h : m.InRange) : ∃ s', s.control m = .ok s' := by
  cases m with
  | «open» c =>
    obtain ⟨h1, h2, h3, h4, h5⟩ := h
    simp only [UmacBs.control, h1, Dir.split, List.foldlM_cons, List.foldlM_nil, Out.pure_eq]
    obtain ⟨s1, e1⟩ := openOne_total s (c := c) (.inl rfl) h2 h3 h4 h5
    obtain ⟨s2, e2⟩ := openOne_total s1 (c := c) (.inr rfl) h2 h3 h4 h5
    rw [e1, Out.bind_ok, e2, Out.bind_ok]
    exact ⟨_, rfl⟩
  | close d ts =>
    obtain ⟨rfl, h2, h3⟩ := h
    simp only [UmacBs.control, Dir.split, List.foldlM_cons, List.foldlM_nil, Out.pure_eq]
    obtain ⟨s1, e1⟩ := closeOne_total s (.inl rfl) (by omega) h3
    obtain ⟨s2, e2⟩ := closeOne_total s1 (.inr rfl) (by omega) h3
    rw [e1, Out.bind_ok, e2, Out.bind_ok]
    exact ⟨_, rfl⟩
  | released ts => exact ⟨_, rfl⟩
  | granted ts => exact ⟨_, rfl⟩
  | ended ts => exact ⟨_, rfl⟩

/-- Voice for a timeslot which exists is taken. -/
theorem voiceDown_total (s : UmacBs) {ts : Nat} {b : Block} (h1 : 1 ≤ ts) (h4 : ts ≤ 4) (hb : 35 ≤ b.length) : ∃ s', s.voiceDown ts b = .ok s' := by
  unfold UmacBs.voiceDown
  obtain ⟨d, hd⟩ := isActive_total s.sched.circuits (.inl rfl) h1 h4
  obtain ⟨u, hu⟩ := isActive_total s.sched.circuits (.inr rfl) h1 h4
  rw [hd, hu, Out.ofRes_ok, Out.ofRes_ok, Out.bind_ok, Out.bind_ok]
  simp only
  generalize (if u = true then s.heard ts (some s.now) else s) = s1
  split
  · obtain ⟨r, hr⟩ := call_ok (s := s1) (quiet_total s1.sched (e := .voice ts b) ⟨h1, h4, hb⟩ (by simp) (by simp))
    rw [hr, Out.bind_ok]
    exact ⟨_, rfl⟩
  · exact ⟨_, rfl⟩

/-- A slot is built when no half slot is to be stolen from a timeslot without a call. -/
theorem tick_total {cfg : CellCfg} (hcfg : cfg.InRange) {scramb : Nat} {x : Time} {es : List SchedEv} {s : UmacBs}
    (he : Env cfg scramb x es s.sched) (hfree : s.sched.Free) {n : Time} (hn : s.now.addTimeslots 1 = .ok n) (w : Bool) :
    ∃ r, s.tick w = .ok r := by
  unfold UmacBs.tick
  rw [hn, Out.ofRes_ok, Out.bind_ok]
  have fin : ∀ (s1 : UmacBs) (es1 : List SchedEv), Env cfg scramb x es1 s1.sched → s1.sched.Free → ∃ r,
      (do let r ← s1.checkSilent.1.call .tick; .ok (r.1, s1.checkSilent.2 ++ match r.2 with | .sent o => [UmacOut.slot o] | _ => [])) = Out.ok r := by
    intro s1 es1 h2 h3
    obtain ⟨r, hr, _⟩ := step_total hcfg h2 h3 (e := .tick) trivial trivial (by simp) (by simp)
    obtain ⟨q, hq⟩ := call_ok (s := s1.checkSilent.1) (e := .tick) ⟨r, hr⟩
    rw [hq, Out.bind_ok]
    exact ⟨_, rfl⟩
  by_cases hw : w = s.wide
  · simp only [hw, if_true, Out.bind_ok]
    exact fin { s with now := n } es he hfree
  · obtain ⟨r, hr, hf⟩ := step_total hcfg he hfree (e := .systemWide w) trivial trivial (by simp) (by simp)
    have h2 := (step_env hcfg he (e := .systemWide w) trivial trivial (s' := r.1) (r := r.2) hr).1
    have hc : ({ s with now := n } : UmacBs).call (.systemWide w) = .ok ({ s with now := n, sched := r.1, log := s.log ++ [(.systemWide w, r.2)] }, r.2) := by
      unfold UmacBs.call
      simp only
      rw [hr]
      rfl
    simp only [hw, if_false]
    rw [hc, Out.bind_ok, Out.bind_ok]
    exact fin { s with now := n, sched := r.1, log := s.log ++ [(.systemWide w, r.2)], wide := w } _ h2 hf

end Verif.Umac
