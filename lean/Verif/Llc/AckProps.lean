import Verif.Llc.EntityProps
/-!
# C26 — the theorems

Everything is about traces: `Llc.init.run evs = .ok (s, tr)` says that the history `evs` (requests from above, PDUs
from the MAC, reports of the MAC, ticks) runs through and that `tr` lists what happened and what the LLC did.
-/
namespace Verif.Llc
open Verif.Tdma Verif.TxReceipt
open Verif.Umac (Addr SsiType)

theorem rel_of_run {evs : List Ev} {s : Llc} {tr : List Item} (h : Llc.init.run evs = .ok (s, tr)) : Rel s tr := by
  simpa using rel_run rel_init evs h

/-- Order and stop-and-wait: when message `b` is handed to the MAC, it is the `b`-th request, it goes to the station
and timeslot of that request, every earlier request to that station has its final report, and `b` has not. -/
theorem c26_stop_and_wait {evs : List Ev} {s : Llc} {tr : List Item} (h : Llc.init.run evs = .ok (s, tr))
    {pre post : List Item} {b : Nat} {addr : Addr} {ts : Nat} {pdu : List Bool}
    (e : tr = pre ++ .out (.data b addr ts pdu) :: post) :
    ∃ r, (reqs pre)[b]? = some r ∧ addr = r.addr ∧ ts = r.ts ∧
      (∀ a q, a < b → (reqs pre)[a]? = some q → q.addr.ssi = r.addr.ssi → Reported pre a) ∧ ¬ Reported pre b := by
  obtain ⟨r, h1, h2, h3, _, h5, h6, _⟩ := (rel_of_run h).inv.good _ _ _ e
  exact ⟨r, h1, h2, h3, h5, h6⟩

/-- Content: what is handed down for message `b` is a BL-DATA or BL-ADATA header with the sequence bit of the message
(the parity of the number of earlier requests to the station, so consecutive messages alternate), then the SDU. -/
theorem c26_content {evs : List Ev} {s : Llc} {tr : List Item} (h : Llc.init.run evs = .ok (s, tr))
    {pre post : List Item} {b : Nat} {addr : Addr} {ts : Nat} {pdu : List Bool}
    (e : tr = pre ++ .out (.data b addr ts pdu) :: post) :
    ∃ r, (reqs pre)[b]? = some r ∧
      (pdu = [false, r.fcs, false, true, parity ((reqs pre).take b) r.addr.ssi] ++ r.sdu ∨
       ∃ nr, pdu = [false, r.fcs, false, false, nr, parity ((reqs pre).take b) r.addr.ssi] ++ r.sdu) := by
  obtain ⟨r, h1, _, _, ⟨hdr, h4, h5⟩, _⟩ := (rel_of_run h).inv.good _ _ _ e
  refine ⟨r, h1, ?_⟩
  rcases h5 with rfl | ⟨nr, rfl⟩
  · exact .inl h4
  · exact .inr ⟨nr, h4⟩

/-- The sequence bits of consecutive messages to one station differ. -/
theorem c26_alternate (rs : List Req) (a b : Nat) (ra rb : Req) (ha : rs[a]? = some ra) (_hb : rs[b]? = some rb) (hab : a < b)
    (hs : ra.addr.ssi = rb.addr.ssi) (hno : ∀ c r, a < c → c < b → rs[c]? = some r → r.addr.ssi ≠ rb.addr.ssi) :
    parity (rs.take b) rb.addr.ssi = !parity (rs.take a) ra.addr.ssi := by
  have hlen : a < rs.length := by rw [List.getElem?_eq_some_iff] at ha; exact ha.1
  have hra : rs[a] = ra := by rw [List.getElem?_eq_some_iff] at ha; exact ha.2
  have hsplit : rs.take b = rs.take a ++ ra :: (rs.take b).drop (a + 1) := by
    conv => lhs; rw [← List.take_append_drop a (rs.take b)]
    rw [List.take_take, Nat.min_eq_left (by omega)]
    congr 1
    rw [List.drop_eq_getElem_cons (by simp; omega)]
    rw [List.getElem_take, hra]
  have hzero : ((rs.take b).drop (a + 1)).countP (fun r => r.addr.ssi == rb.addr.ssi) = 0 := by
    rw [List.countP_eq_zero]
    intro r hr
    rw [List.mem_iff_getElem?] at hr
    obtain ⟨i, hi⟩ := hr
    rw [List.getElem?_drop] at hi
    have hib : a + 1 + i < b := by
      rw [List.getElem?_eq_some_iff] at hi
      obtain ⟨hi, _⟩ := hi
      rw [List.length_take] at hi; omega
    rw [List.getElem?_take_of_lt hib] at hi
    have := hno _ _ (by omega) hib hi
    simpa using this
  unfold parity
  rw [hsplit, hs, List.countP_append, List.countP_cons, hzero, if_pos (by simp [hs])]
  generalize List.countP _ (rs.take a) = n
  by_cases hn : n % 2 = 1
  · have : ¬ (n + (0 + 1)) % 2 = 1 := by omega
    simp only [hn, this]; rfl
  · have : (n + (0 + 1)) % 2 = 1 := by omega
    simp only [hn, this]; rfl

/-- A message is handed down at most four times, and again only after the MAC reported on the last attempt and the
sixteen timeslots of T.251 have gone by since. -/
theorem c26_attempts {evs : List Ev} {s : Llc} {tr : List Item} (h : Llc.init.run evs = .ok (s, tr)) :
    (∀ b, sends tr b ≤ 4) ∧
    ∀ pre post b addr ts pdu, tr = pre ++ .out (.data b addr ts pdu) :: post → 0 < sends pre b → Waited pre b := by
  have hg := (rel_of_run h).inv.good
  constructor
  · intro b
    by_cases h0 : sends tr b = 0
    · omega
    · -- look at the last one
      have : ∀ l : List Item, sends l b ≠ 0 → ∃ p1 i p2, l = p1 ++ i :: p2 ∧ i.isSend b = true ∧ sends p2 b = 0 := by
        intro l
        induction l using snoc_induction with
        | h0 => intro h; simp [sends] at h
        | h1 l x ih =>
          intro hl
          by_cases hx : x.isSend b = true
          · exact ⟨l, x, [], rfl, hx, rfl⟩
          · have hx0 : sends [x] b = 0 := by simp [sends, hx]
            rw [sends_append, hx0] at hl
            obtain ⟨p1, i, p2, rfl, h1, h2⟩ := ih (by omega)
            exact ⟨p1, i, p2 ++ [x], by simp, h1, by rw [sends_append, h2, hx0]⟩
      obtain ⟨p1, i, p2, e, hi, h2⟩ := this tr h0
      cases i with
      | ev e => simp [Item.isSend] at hi
      | out o =>
        have hi1 : sends [.out o] b = 1 := by simp [sends, hi]
        cases o <;> simp [Item.isSend] at hi
        subst hi
        obtain ⟨_, _, _, _, _, _, _, h4, _⟩ := hg _ _ _ e
        rw [e, ← List.singleton_append, sends_append, sends_append, h2, hi1]; omega
  · intro pre post b addr ts pdu e hs
    obtain ⟨_, _, _, _, _, _, _, _, h5⟩ := hg _ _ _ e
    exact h5 hs

/-- A message is reported lost only after four attempts, the last one reported on and sixteen timeslots old; it has
had no final report before. -/
theorem c26_lost {evs : List Ev} {s : Llc} {tr : List Item} (h : Llc.init.run evs = .ok (s, tr))
    {pre post : List Item} {b : Nat} (e : tr = pre ++ .out (.lost b) :: post) :
    sends pre b = 4 ∧ ¬ Reported pre b ∧ Waited pre b := (rel_of_run h).inv.good _ _ _ e

/-- A message is reported acknowledged only in response to a PDU just received from its station that carries its
sequence number as acknowledgement, after the latest transmission went on the air; it has had no final report before. -/
theorem c26_acknowledged {evs : List Ev} {s : Llc} {tr : List Item} (h : Llc.init.run evs = .ok (s, tr))
    {pre post : List Item} {b : Nat} (e : tr = pre ++ .out (.acknowledged b) :: post) :
    ¬ Reported pre b ∧ ∃ p addr ts pdu r, pre = p ++ [.ev (.ind addr ts pdu)] ∧ (reqs pre)[b]? = some r ∧
      addr.ssi = r.addr.ssi ∧ ackIn pdu = some (parity ((reqs pre).take b) r.addr.ssi) ∧ OnAir p b := by
  obtain ⟨h1, p, addr, ts, pdu, r, h2, h3, h4, h5, _, h6⟩ := (rel_of_run h).inv.good _ _ _ e
  exact ⟨h1, p, addr, ts, pdu, r, h2, h3, h4, h5, h6⟩

theorem dropAll_reports {out : List Msg} {tr : List Item} (now : Time) (h : Inv out tr) (hnow : clock tr = now) (ssis : List Nat)
    (hnd : ssis.Nodup) {out' : List Msg} {es : List Emit} (he : dropAll out ssis = .ok (out', es)) {m : Msg} (hm : m ∈ out)
    (hsub : m.submitted = true) (hs : m.addr.ssi ∈ ssis)
    (hsrc : ∀ ssi ∈ ssis, ∃ m ∈ out, m.addr.ssi = ssi ∧ m.timedOut now = true ∧ ¬ m.count < 3) : .lost m.id ∈ es := by
  induction ssis generalizing out tr es with
  | nil => simp at hs
  | cons ssi ssis ih =>
    simp only [dropAll] at he
    split at he
    · cases he
    · rename_i x rest htake
      simp only [Res.bind_eq_ok] at he
      obtain ⟨c, _, ⟨out1, es1⟩, h1, h2⟩ := he
      cases h2
      obtain ⟨l1, l2, rfl, rfl, hxs, hxsub⟩ := takeOutstanding_some htake
      rw [List.mem_cons] at hs
      by_cases hms : m.addr.ssi = ssi
      · have : m = x := h.one hm (by simp) hsub hxsub (by rw [hms, hxs])
        subst this; simp
      · have hs' : m.addr.ssi ∈ ssis := hs.resolve_left hms
        have hm' : m ∈ l1 ++ l2 := by
          rw [List.mem_append, List.mem_cons] at hm
          rw [List.mem_append]
          rcases hm with hm | rfl | hm
          · exact .inl hm
          · exact absurd hxs hms
          · exact .inr hm
        -- removing `x` keeps the order facts needed; use the invariant with its report
        obtain ⟨y, hy, hys, hyt, hyc⟩ := hsrc ssi (by simp)
        have hysub := (timedOut_spec (h.ent y hy) (by rw [hnow]; exact hyt)).2.1
        have hyx : y = x := h.one hy (by simp) hysub hxsub (by rw [hys, hxs])
        subst hyx
        have hent := h.ent y (by simp)
        obtain ⟨hw, _, _⟩ := timedOut_spec hent (by rw [hnow]; exact hyt)
        have h4 : sends tr y.id = 4 := by rw [hent.sent hxsub]; have := hent.count; omega
        have hinv := h.remove (o := .lost y.id) (.inr rfl) ⟨h4, hent.open_, hw⟩
        have := ih hinv (by rw [← hnow]; exact clock_append _ _ (by simp)) (List.nodup_cons.1 hnd).2 h1 hm' hs' ?_
        · simp [this]
        · intro s hs'
          obtain ⟨z, hz, hzs, hzt⟩ := hsrc s (by simp [hs'])
          refine ⟨z, ?_, hzs, hzt⟩
          have hne : z ≠ y := by
            intro e; subst e
            have : s = ssi := by rw [← hzs, hys]
            rw [this] at hs'
            exact (List.nodup_cons.1 hnd).1 hs'
          rw [List.mem_append, List.mem_cons] at hz
          rw [List.mem_append]
          rcases hz with hz | hz | hz
          · exact .inl hz
          · exact absurd hz hne
          · exact .inr hz

theorem dropAll_sub {out : List Msg} (ssis : List Nat) {out' : List Msg} {es : List Emit} (he : dropAll out ssis = .ok (out', es)) :
    out'.Sublist out ∧ ∀ m ∈ out, m.submitted = false → m ∈ out' := by
  induction ssis generalizing out es with
  | nil => simp [dropAll] at he; obtain ⟨rfl, rfl⟩ := he; exact ⟨List.Sublist.refl _, fun m hm _ => hm⟩
  | cons ssi ssis ih =>
    simp only [dropAll] at he
    split at he
    · cases he
    · rename_i x rest htake
      simp only [Res.bind_eq_ok] at he
      obtain ⟨c, _, ⟨out1, es1⟩, h1, h2⟩ := he
      cases h2
      obtain ⟨l1, l2, rfl, rfl, hxs, hxsub⟩ := takeOutstanding_some htake
      obtain ⟨hs, hk⟩ := ih h1
      refine ⟨hs.trans (List.Sublist.append (List.Sublist.refl _) (List.sublist_cons_self _ _)), ?_⟩
      intro m hm hu
      apply hk m _ hu
      rw [List.mem_append, List.mem_cons] at hm
      rw [List.mem_append]
      rcases hm with hm | rfl | hm
      · exact .inl hm
      · rw [hxsub] at hu; cases hu
      · exact .inr hm

/-- Nothing is sat on. Take a request without final report whose predecessors to the same station all have theirs. At
the end of the tick it is handed down if it never was; it is handed down again if the timer has run out and fewer than
four attempts were made; after four it is reported lost. -/
theorem c26_prompt {evs : List Ev} {s : Llc} {tr : List Item} (h : Llc.init.run evs = .ok (s, tr)) {s' : Llc} {es : List Emit}
    (he : s.step .tickEnd = .ok (s', es)) {k : Nat} {r : Req} (hr : (reqs tr)[k]? = some r) (hk : ¬ Reported tr k)
    (hold : ∀ a q, a < k → (reqs tr)[a]? = some q → q.addr.ssi = r.addr.ssi → Reported tr a) :
    (sends tr k = 0 → ∃ pdu, .data k r.addr r.ts pdu ∈ es) ∧
    (∀ d t, phase tr k = .noticed d t → (clock tr).diff t ≥ 16 →
      (sends tr k < 4 → ∃ pdu, .data k r.addr r.ts pdu ∈ es) ∧ (sends tr k = 4 → .lost k ∈ es)) := by
  have hrel := rel_of_run h
  have hkl : k < (reqs tr).length := by rw [List.getElem?_eq_some_iff] at hr; exact hr.1
  obtain ⟨m, hm, hmk⟩ := (hrel.inv.all k hkl).resolve_left hk
  have hent := hrel.inv.ent m hm
  have hreq := hent.req
  rw [hmk, hr] at hreq
  simp only [Option.some.injEq] at hreq
  subst hmk
  -- the message is the first of its station
  have hfirst : ∀ a ∈ s.out, a.addr.ssi = m.addr.ssi → a.id < m.id → False := by
    intro a ha hs hlt
    have := (hrel.inv.ent a ha)
    exact this.open_ (hold a.id _ hlt this.req (by simp only [hs, hreq]))
  -- the pieces of the tick end, as in `rel_tickEnd`
  have hc0 : clock (tr ++ [.ev .tickEnd]) = clock tr := clock_append _ _ (by simp)
  simp only [Llc.step, Llc.tickEnd, Llc.retransmit, Res.bind_eq_ok] at he
  obtain ⟨⟨s1, es1⟩, ⟨⟨d1, d2⟩, hd, h1⟩, he⟩ := he
  cases h1; cases he
  have hnote := hrel.inv.note
  rw [← hrel.now] at hnote
  have hmap : (s.out.map fun m => m.noteDone s.now).map (fun m => m.retry s.now) = s.out.map fun m => m.retry s.now := by
    rw [List.map_map]; apply List.map_congr_left
    intro m _
    simp only [Function.comp, Msg.retry, noteDone_noteDone]
  have hret := Inv.retries (out := s.out.map fun m => m.noteDone s.now) [] s.now (by simpa using hnote)
    (by rw [hc0]; exact hrel.now.symm) (by
      intro m hm; rw [List.mem_map] at hm; obtain ⟨m, _, rfl⟩ := hm; exact noteDone_noteDone _ _)
  rw [hmap] at hret
  simp only [List.nil_append] at hret
  obtain ⟨hret, hgive⟩ := hret
  have hclk1 : clock (tr ++ [.ev .tickEnd] ++ ((s.out.map fun m => m.retry s.now).map fun r => r.2.1).flatten.map .out) = s.now := by
    rw [clock_emits, hc0]; exact hrel.now.symm
  have hin : ∀ r ∈ s.out.map fun m => m.retry s.now, r.1 ∈ (s.out.map fun m => m.retry s.now).map fun r => r.1 :=
    fun r hr => List.mem_map_of_mem hr
  have hnd : (((s.out.map fun m => m.retry s.now).filter fun r => r.2.2).map fun r => r.1.addr.ssi).Nodup := by
    rw [List.Nodup, List.pairwise_map]
    have hp : (s.out.map fun m => m.retry s.now).Pairwise fun a b =>
        a.1.addr.ssi = b.1.addr.ssi → a.1.id < b.1.id ∧ b.1.submitted = false := by
      have := hret.ord; rw [List.pairwise_map] at this; exact this
    have hf := List.Pairwise.filter (fun r => r.2.2) hp
    refine List.Pairwise.imp_of_mem ?_ hf
    intro a b _ hb hab he
    rw [List.mem_filter] at hb
    have hsub := (timedOut_spec (hret.ent b.1 (hin b hb.1)) (by rw [hclk1]; exact (hgive b hb.1 hb.2).2.1)).2.1
    rw [(hab he).2] at hsub; cases hsub
  constructor
  · -- never sent
    intro h0
    have hu : m.submitted = false := by
      cases hs : m.submitted with
      | false => rfl
      | true => have := hent.sent hs; omega
    obtain ⟨_, _, htd, hraw⟩ := hent.fresh hu
    have hnd0 : m.noteDone s.now = m := by
      unfold Msg.noteDone
      rw [if_neg]
      rw [Bool.or_eq_true, isTransmitted_iff, isDiscarded_iff]; omega
    have hrm : m.retry s.now = (m, [], false) := by
      unfold Msg.retry; rw [hnd0]
      simp [Msg.timedOut, htd]
    have hmem : m ∈ d1 := by
      refine (dropAll_sub _ hd).2 m ?_ hu
      rw [List.mem_map]
      exact ⟨m.retry s.now, List.mem_map_of_mem hm, by rw [hrm]⟩
    refine ⟨m.pdu, ?_⟩
    have hsend : m.emit ∈ (sendFree [] (d1)).2 := by
      -- `m` is in front of every other message of its station
      obtain ⟨l1, l2, hl⟩ := List.mem_iff_append.1 hmem
      have hl1 : ∀ a ∈ l1, a.addr.ssi ≠ m.addr.ssi := by
        intro a ha hs
        have hain : a ∈ (s.out.map fun m => m.retry s.now).map fun r => r.1 :=
          (dropAll_sub _ hd).1.subset (by rw [hl]; simp [ha])
        have hord := List.Pairwise.sublist (dropAll_sub _ hd).1 hret.ord
        rw [hl, List.pairwise_append] at hord
        have hlt := (hord.2.2 a ha m (by simp) hs).1
        rw [List.map_map, List.mem_map] at hain
        obtain ⟨x, hx, rfl⟩ := hain
        have hid : ((fun r => r.1) ∘ fun m => Msg.retry m s.now) x = (x.retry s.now).1 := rfl
        rw [hid] at hlt hs
        have hsame : (x.retry s.now).1.id = x.id ∧ (x.retry s.now).1.addr = x.addr := by
          unfold Msg.retry Msg.noteDone
          simp only
          split <;> (split <;> (try split) <;> simp [Msg.submit])
        rw [hsame.1] at hlt; rw [hsame.2] at hs
        exact hfirst x hx hs hlt
      rw [hl]
      clear hl hd hmem
      suffices ∀ blocked, m.addr.ssi ∉ blocked → m.emit ∈ (sendFree blocked (l1 ++ m :: l2)).2 from this [] (by simp)
      intro blocked hb
      induction l1 generalizing blocked with
      | nil =>
        rw [List.nil_append]
        unfold sendFree
        simp only [hu, Bool.false_eq_true, if_false]
        rw [if_neg (by simpa using hb)]
        simp
      | cons x l1 ih =>
        have hxs := hl1 x (by simp)
        have ih := ih (fun a ha => hl1 a (by simp [ha]))
        rw [List.cons_append]
        unfold sendFree
        split
        · exact ih _ (by simp [hb, Ne.symm hxs])
        · split
          · exact ih _ hb
          · simp only [List.mem_cons]
            exact .inr (ih _ (by simp [hb, Ne.symm hxs]))
    have : m.emit = .data m.id r.addr r.ts m.pdu := by rw [hreq]; rfl
    rw [← this]
    simp only [List.mem_append]
    exact .inl (.inl (.inr hsend))
  · -- the timer has run out
    intro d t hph ht
    rw [← hrel.inv.ph m hm] at hph
    have hsub : m.submitted = true := by
      cases hs : m.submitted with
      | true => rfl
      | false => simp [Msg.phase, hs] at hph
    have htd : m.tDone = some t := by
      cases htd : m.tDone with
      | some t' =>
        simp only [Msg.phase, hsub, htd, Bool.true_eq_false, if_false, Phase.noticed.injEq] at hph
        rw [hph.2]
      | none =>
        simp only [Msg.phase, hsub, htd, Bool.true_eq_false, if_false] at hph
        split at hph <;> cases hph
    have hnd0 : m.noteDone s.now = m := by
      unfold Msg.noteDone; rw [if_neg]; simp [htd]
    have hto : m.timedOut s.now = true := by
      simp only [Msg.timedOut, htd, Bool.or_eq_true, decide_eq_true_eq, T251]
      rw [hrel.now]; right; simpa using ht
    constructor
    · intro h4
      have hc : m.count < N252 := by have := hent.sent hsub; simp only [N252]; omega
      have hrm : m.retry s.now = ({ m.submit with count := m.count + 1 }, [m.emit], false) := by
        simp [Msg.retry, hnd0, hto, hc]
      refine ⟨m.pdu, ?_⟩
      have : m.emit = .data m.id r.addr r.ts m.pdu := by rw [hreq]; rfl
      rw [← this]
      simp only [List.mem_append]
      refine .inl (.inl (.inl (.inl ?_)))
      rw [List.mem_flatten]
      refine ⟨[m.emit], ?_, by simp⟩
      rw [List.map_map, List.mem_map]
      exact ⟨m, hm, by simp [hrm]⟩
    · intro h4
      have hc : ¬ m.count < N252 := by have := hent.sent hsub; simp only [N252]; omega
      have hrm : m.retry s.now = (m, [], true) := by simp [Msg.retry, hnd0, hto, hc]
      have hmr : m.retry s.now ∈ s.out.map fun m => m.retry s.now := List.mem_map_of_mem hm
      have hlost : .lost m.id ∈ d2 := by
        refine dropAll_reports s.now hret hclk1 _ hnd hd (m := m) ?_ hsub ?_ ?_
        · have := hin _ hmr; rw [hrm] at this; exact this
        · rw [List.mem_map]
          exact ⟨m.retry s.now, by rw [List.mem_filter]; exact ⟨hmr, by rw [hrm]⟩, by rw [hrm]⟩
        · intro ssi hssi
          rw [List.mem_map] at hssi
          obtain ⟨r, hr, rfl⟩ := hssi
          rw [List.mem_filter] at hr
          exact ⟨r.1, hin r hr.1, rfl, (hgive r hr.1 hr.2).2⟩
      simp only [List.mem_append]
      exact .inl (.inl (.inl (.inr hlost)))

/-! ## No abort, when nothing is discarded -/

/-- Events which the LLC survives: acknowledged requests for individual addresses without stealing whose reporter
expects an acknowledgement; no discarded transmissions; no PDUs of the two types without a handler; no PDU that consists
of a header and an FCS only. -/
def Ev.benign : Ev → Prop
  | .dataReq addr _ stealing _ expectsAck _ => stealing = false ∧ addr.ssiType ≠ .gssi ∧ expectsAck = true
  | .ind _ _ pdu => kindOf pdu ≠ some .other ∧
      ∀ k ns nr body, parseBl k pdu = some (true, ns, nr, body) → body.length ≠ 32
  | .mac _ discarded => discarded = false
  | _ => True

/-- The reporters of queued messages expect an acknowledgement and are not discarded. -/
def Nice (s : Llc) : Prop := ∀ m ∈ s.out, m.cell.expectsAck = true ∧ m.cell.raw ≠ 1

theorem mark_ok {c : Cell} (h1 : c.expectsAck = true) (h2 : c.raw = 2) : (∃ c', c.markAcknowledged = .ok c') ∧ ∃ c', c.markLost = .ok c' := by
  constructor
  · exact ⟨{ c with raw := 4 }, by simp [Cell.markAcknowledged, Cell.mark, h1, h2, TxState.raw]⟩
  · exact ⟨{ c with raw := 3 }, by simp [Cell.markLost, Cell.mark, h1, h2, TxState.raw]⟩

theorem fcsGood_ok {f : Bool} {body : List Bool} (h : f = true → body.length ≠ 32) : ∃ b, fcsGood f body = .ok b := by
  unfold fcsGood fcsOk
  cases f with
  | false => exact ⟨true, rfl⟩
  | true =>
    have := h rfl
    simp only [if_true, this, if_false]
    split
    · exact ⟨_, rfl⟩
    · exact ⟨_, rfl⟩

theorem processAck_ok {s : Llc} {tr : List Item} (hrel : Inv s.out tr) (hn : Nice s) (ssi : Nat) (nr : Bool) :
    ∃ s' es, s.processAck ssi nr = .ok (s', es) ∧ Nice s' := by
  unfold Llc.processAck
  cases ht : takeOutstanding ssi s.out with
  | none => exact ⟨_, _, rfl, hn⟩
  | some q =>
    obtain ⟨m, rest⟩ := q
    obtain ⟨l1, l2, hout, rfl, _, hsub⟩ := takeOutstanding_some ht
    have hm : m ∈ s.out := by rw [hout]; simp
    have hfront : Nice { s with out := m :: (l1 ++ l2) } := by
      intro x hx
      apply hn
      rw [hout]
      simp only [List.mem_cons, List.mem_append] at hx ⊢
      rcases hx with h | h | h <;> simp [h]
    simp only
    by_cases hd : m.tDone = none
    · rw [if_pos hd]; exact ⟨_, _, rfl, hfront⟩
    · rw [if_neg hd]
      by_cases hns : m.ns = nr
      · rw [if_pos hns]
        have hraw : m.cell.raw = 2 := by
          have h1 := (hrel.ent m hm).raw
          have h2 := (hn m hm).2
          cases htd : m.tDone with
          | none => exact absurd htd hd
          | some t => have := ((hrel.ent m hm).done t htd).2; omega
        obtain ⟨c', hc'⟩ := (mark_ok (hn m hm).1 hraw).1
        rw [hc']
        refine ⟨_, _, rfl, ?_⟩
        intro x hx
        apply hn
        rw [hout]
        simp only [List.mem_cons, List.mem_append] at hx ⊢
        rcases hx with h | h <;> simp [h]
      · rw [if_neg hns]; exact ⟨_, _, rfl, hfront⟩

theorem rxBl_ok {s : Llc} {tr : List Item} (hrel : Inv s.out tr) (hn : Nice s) (k : Kind) (addr : Addr) (ts : Nat) (pdu : List Bool)
    (hb : ∀ ns nr body, parseBl k pdu = some (true, ns, nr, body) → body.length ≠ 32) :
    ∃ s' es, s.rxBl k addr ts pdu = .ok (s', es) ∧ Nice s' := by
  unfold Llc.rxBl
  cases hp : parseBl k pdu with
  | none => exact ⟨_, _, rfl, hn⟩
  | some q =>
    obtain ⟨f, ns, nr, body⟩ := q
    obtain ⟨g, hg⟩ := fcsGood_ok (f := f) (body := body) (fun hf => hb ns nr body (by rw [hp, hf]))
    simp only [hg, Res.bind_ok]
    cases g with
    | false => exact ⟨_, _, rfl, hn⟩
    | true =>
      simp only [if_true, Llc.acceptBl]
      obtain ⟨acks, hacks⟩ : ∃ acks, s.owe addr ts ns = { s with acks := acks } := by
        cases ns with
        | none => exact ⟨s.acks, rfl⟩
        | some n => exact ⟨_, rfl⟩
      rw [hacks]
      cases nr with
      | none => exact ⟨_, _, rfl, hn⟩
      | some nr =>
        obtain ⟨s', es, h1, h2⟩ := processAck_ok (s := { s with acks := acks }) hrel hn addr.ssi nr
        simp only [Llc.handleNr]
        rw [h1]
        exact ⟨_, _, rfl, h2⟩

theorem dropAll_ok {out : List Msg} {tr : List Item} (now : Time) (h : Inv out tr) (hnow : clock tr = now)
    (hn : ∀ m ∈ out, m.cell.expectsAck = true ∧ m.cell.raw ≠ 1) (ssis : List Nat)
    (hsrc : ∀ ssi ∈ ssis, ∃ m ∈ out, m.addr.ssi = ssi ∧ m.timedOut now = true ∧ ¬ m.count < 3)
    (hnd : ssis.Nodup) : ∃ out' es, dropAll out ssis = .ok (out', es) := by
  induction ssis generalizing out tr with
  | nil => exact ⟨_, _, rfl⟩
  | cons ssi ssis ih =>
    obtain ⟨x, hx, hxs, hxt, hxc⟩ := hsrc ssi (by simp)
    obtain ⟨hw, hxsub, hxr⟩ := timedOut_spec (h.ent x hx) (by rw [hnow]; exact hxt)
    simp only [dropAll]
    cases ht : takeOutstanding ssi out with
    | none => exact absurd ⟨hxs, hxsub⟩ (takeOutstanding_none ht x hx)
    | some q =>
      obtain ⟨m, rest⟩ := q
      obtain ⟨l1, l2, rfl, rfl, hs, hsub⟩ := takeOutstanding_some ht
      have hxm : x = m := h.one hx (by simp) hxsub hsub (by rw [hxs, hs])
      subst hxm
      have hent := h.ent x hx
      have hraw : x.cell.raw = 2 := by have := hent.raw; have := (hn x hx).2; omega
      obtain ⟨c, hc⟩ := (mark_ok (hn x hx).1 hraw).2
      have h4 : sends tr x.id = 4 := by rw [hent.sent hsub]; have := hent.count; omega
      have hinv := h.remove (o := .lost x.id) (.inr rfl) ⟨h4, hent.open_, hw⟩
      obtain ⟨o', es', ho⟩ := ih hinv (by rw [← hnow]; exact clock_append _ _ (by simp)) (by
          intro m hm; apply hn
          rw [List.mem_append] at hm; rw [List.mem_append, List.mem_cons]
          rcases hm with hm | hm <;> simp [hm]) (by
        intro s hs'
        obtain ⟨z, hz, hzs, hzt⟩ := hsrc s (by simp [hs'])
        refine ⟨z, ?_, hzs, hzt⟩
        have hne : z ≠ x := by
          intro e; subst e
          have : s = ssi := by rw [← hzs, hxs]
          rw [this] at hs'
          exact (List.nodup_cons.1 hnd).1 hs'
        rw [List.mem_append, List.mem_cons] at hz
        rw [List.mem_append]
        rcases hz with hz | hz | hz
        · exact .inl hz
        · exact absurd hz hne
        · exact .inr hz) (List.nodup_cons.1 hnd).2
      simp only [hc, ho, Res.bind_ok]
      exact ⟨_, _, rfl⟩

theorem retry_nice {m : Msg} (h : m.cell.expectsAck = true ∧ m.cell.raw ≠ 1) (now : Time) :
    (m.retry now).1.cell.expectsAck = true ∧ (m.retry now).1.cell.raw ≠ 1 := by
  unfold Msg.retry Msg.noteDone
  simp only
  split <;> (split <;> (try split) <;> simp [Msg.submit, Cell.reset, TxState.raw, h.1, h.2])

theorem sendFree_nice (blocked : List Nat) {out : List Msg} (h : ∀ m ∈ out, m.cell.expectsAck = true ∧ m.cell.raw ≠ 1) :
    ∀ m ∈ (sendFree blocked out).1, m.cell.expectsAck = true ∧ m.cell.raw ≠ 1 := by
  induction out generalizing blocked with
  | nil => simp [sendFree]
  | cons x out ih =>
    have hx := h x (by simp)
    have ih := fun b => ih b (fun m hm => h m (by simp [hm]))
    unfold sendFree
    split
    · intro m hm
      rcases List.mem_cons.1 hm with rfl | hm
      · exact hx
      · exact ih _ m hm
    · split
      · intro m hm
        rcases List.mem_cons.1 hm with rfl | hm
        · exact hx
        · exact ih _ m hm
      · intro m hm
        rcases List.mem_cons.1 hm with rfl | hm
        · exact ⟨by simpa [Msg.submit, Cell.reset] using hx.1, by simp [Msg.submit, Cell.reset, TxState.raw]⟩
        · exact ih _ m hm

theorem tickEnd_ok {s : Llc} {tr : List Item} (hrel : Rel s tr) (hn : Nice s) : ∃ s' es, s.tickEnd = .ok (s', es) ∧ Nice s' := by
  have hc0 : clock (tr ++ [.ev .tickEnd]) = clock tr := clock_append _ _ (by simp)
  have hnote := hrel.inv.note
  rw [← hrel.now] at hnote
  have hmap : (s.out.map fun m => m.noteDone s.now).map (fun m => m.retry s.now) = s.out.map fun m => m.retry s.now := by
    rw [List.map_map]; apply List.map_congr_left
    intro m _
    simp only [Function.comp, Msg.retry, noteDone_noteDone]
  have hret := Inv.retries (out := s.out.map fun m => m.noteDone s.now) [] s.now (by simpa using hnote)
    (by rw [hc0]; exact hrel.now.symm) (by
      intro m hm; rw [List.mem_map] at hm; obtain ⟨m, _, rfl⟩ := hm; exact noteDone_noteDone _ _)
  rw [hmap] at hret
  simp only [List.nil_append] at hret
  obtain ⟨hret, hgive⟩ := hret
  have hclk1 : clock (tr ++ [.ev .tickEnd] ++ ((s.out.map fun m => m.retry s.now).map fun r => r.2.1).flatten.map .out) = s.now := by
    rw [clock_emits, hc0]; exact hrel.now.symm
  have hin : ∀ r ∈ s.out.map fun m => m.retry s.now, r.1 ∈ (s.out.map fun m => m.retry s.now).map fun r => r.1 :=
    fun r hr => List.mem_map_of_mem hr
  have hnice : ∀ m ∈ (s.out.map fun m => m.retry s.now).map fun r => r.1, m.cell.expectsAck = true ∧ m.cell.raw ≠ 1 := by
    intro m hm
    rw [List.map_map, List.mem_map] at hm
    obtain ⟨x, hx, rfl⟩ := hm
    exact retry_nice (hn x hx) _
  obtain ⟨o', es', ho⟩ := dropAll_ok s.now hret hclk1 hnice (((s.out.map fun m => m.retry s.now).filter fun r => r.2.2).map fun r => r.1.addr.ssi) (by
    intro ssi hssi
    rw [List.mem_map] at hssi
    obtain ⟨r, hr, rfl⟩ := hssi
    rw [List.mem_filter] at hr
    exact ⟨r.1, hin r hr.1, rfl, (hgive r hr.1 hr.2).2⟩) (by
    rw [List.Nodup, List.pairwise_map]
    have hp : (s.out.map fun m => m.retry s.now).Pairwise fun a b =>
        a.1.addr.ssi = b.1.addr.ssi → a.1.id < b.1.id ∧ b.1.submitted = false := by
      have := hret.ord; rw [List.pairwise_map] at this; exact this
    have hf := List.Pairwise.filter (fun r => r.2.2) hp
    refine List.Pairwise.imp_of_mem ?_ hf
    intro a b _ hb hab he
    rw [List.mem_filter] at hb
    have hsub := (timedOut_spec (hret.ent b.1 (hin b hb.1)) (by rw [hclk1]; exact (hgive b hb.1 hb.2).2.1)).2.1
    rw [(hab he).2] at hsub; cases hsub)
  simp only [Llc.tickEnd, Llc.retransmit, ho, Res.bind_ok]
  refine ⟨_, _, rfl, ?_⟩
  exact sendFree_nice [] fun m hm => hnice m ((dropAll_sub _ ho).1.subset hm)

theorem step_ok {s : Llc} {tr : List Item} (hrel : Rel s tr) (hn : Nice s) (e : Ev) (hb : e.benign) :
    ∃ s' es, s.step e = .ok (s', es) ∧ Nice s' := by
  cases e with
  | dataReq addr ts st fcs ea sdu =>
    obtain ⟨h1, h2, h3⟩ := hb
    subst h1 h3
    simp only [Llc.step, Llc.dataReq]
    rw [if_neg (by simp [h2])]
    refine ⟨_, _, rfl, ?_⟩
    intro m hm
    simp only [List.mem_append, List.mem_singleton] at hm
    rcases hm with hm | rfl
    · exact hn m hm
    · simp [TxState.raw]
  | unitdataReq addr sdu => exact ⟨_, _, rfl, hn⟩
  | ind addr ts pdu =>
    simp only [Llc.step, Llc.unitdataInd]
    split
    · exact ⟨_, _, rfl, hn⟩
    · exact ⟨_, _, rfl, hn⟩
    · rename_i hk; exact absurd hk hb.1
    · exact rxBl_ok hrel.inv hn _ addr ts pdu (hb.2 _)
  | mac id d =>
    simp only [Ev.benign] at hb
    subst hb
    refine ⟨_, _, rfl, ?_⟩
    intro m hm
    simp only [List.mem_map] at hm
    obtain ⟨x, hx, rfl⟩ := hm
    unfold Msg.report
    split
    · exact ⟨(hn x hx).1, by simp [TxState.raw]⟩
    · exact hn x hx
  | tickStart t => exact ⟨_, _, rfl, hn⟩
  | tickEnd => exact tickEnd_ok hrel hn

/-- With benign events the LLC never aborts, whatever the order, loss or repetition of acknowledgements. -/
theorem c26_total_partial (evs : List Ev) (hb : ∀ e ∈ evs, e.benign) : ∃ s tr, Llc.init.run evs = .ok (s, tr) := by
  suffices ∀ (s : Llc) (tr : List Item), Rel s tr → Nice s → ∃ s' tr', s.run evs = .ok (s', tr') from
    this _ _ rel_init (by simp [Nice, Llc.init])
  intro s tr hrel hn
  induction evs generalizing s tr with
  | nil => exact ⟨_, _, rfl⟩
  | cons e evs ih =>
    obtain ⟨s1, es, h1, hn1⟩ := step_ok hrel hn e (hb e (by simp))
    obtain ⟨s2, tr2, h2⟩ := ih (fun x hx => hb x (by simp [hx])) s1 _ (rel_step hrel e h1) hn1
    simp only [Llc.run, h1, h2, Res.bind_ok]
    exact ⟨_, _, rfl⟩

/-! ## Cases -/

def st1 : Addr := ⟨1001, .issi, false⟩
def st2 : Addr := ⟨1002, .issi, false⟩

/-- Two messages to one station and one to another, an acknowledgement from the first station. -/
def hist : List Ev :=
  [.dataReq st1 1 false false true [true, false], .dataReq st1 1 false false true [true, true], .dataReq st2 1 false false true [false],
   .tickEnd, .mac 0 false, .mac 2 false, .tickEnd, .ind st1 1 [false, false, true, true, false], .tickEnd]

/-- What the LLC did in a history. -/
def outputs (evs : List Ev) : Option (List Emit) :=
  match Llc.init.run evs with
  | .ok (_, tr) => some (tr.filterMap fun i => match i with | .out o => some o | _ => none)
  | .panic => none

example : outputs hist = some [
    .data 0 st1 1 [false, false, false, true, false, true, false], .data 2 st2 1 [false, false, false, true, false, false],
    .acknowledged 0, .data 1 st1 1 [false, false, false, true, true, true, true]] := by
  decide +kernel

/-- A round: sixteen timeslots pass, the tick ends, the MAC reports, the tick ends. -/
def round (n : Nat) (discarded : Bool) : List Ev :=
  [.tickStart (fromInt (16 * n)), .tickEnd, .mac 0 discarded, .tickEnd]

/-- A station that never answers: four attempts, then the loss is reported and the next message goes out. -/
example : outputs ([.dataReq st1 1 false false true [true], .dataReq st1 1 false false true [false]] ++ round 0 false ++ round 1 false ++
      round 2 false ++ round 3 false ++ round 4 false) = some [
    .data 0 st1 1 [false, false, false, true, false, true], .data 0 st1 1 [false, false, false, true, false, true],
    .data 0 st1 1 [false, false, false, true, false, true], .data 0 st1 1 [false, false, false, true, false, true],
    .lost 0, .data 1 st1 1 [false, false, false, true, true, false]] := by
  decide +kernel

/-- Finding: an acknowledgement for a message whose latest transmission was discarded by the MAC (for instance a
retransmission, while the acknowledgement of the first one arrives late) aborts. -/
theorem c26_discarded_then_acknowledged_aborts : Llc.init.run ([.dataReq st1 1 false false true [true]] ++ round 0 false ++
    round 1 true ++ [.ind st1 1 [false, false, true, true, false]]) = .panic := by
  decide +kernel

/-- Finding: giving up on a message whose latest transmission was discarded aborts instead of reporting the loss. -/
theorem c26_discarded_then_given_up_aborts : Llc.init.run ([.dataReq st1 1 false false true [true]] ++ round 0 false ++
    round 1 false ++ round 2 false ++ round 3 true ++ round 4 true) = .panic := by
  decide +kernel

/-- Finding: a request whose reporter does not expect an acknowledgement aborts when the acknowledgement comes. -/
theorem c26_unexpected_acknowledgement_aborts : Llc.init.run ([.dataReq st1 1 false false false [true]] ++ round 0 false ++
    [.ind st1 1 [false, false, true, true, false]]) = .panic := by
  decide +kernel

/-- Finding: a received PDU of LLC type 13 or 14 aborts. -/
theorem c26_type_13_aborts : Llc.init.run [.ind st1 1 [true, true, false, true]] = .panic ∧
    Llc.init.run [.ind st1 1 [true, true, true, false]] = .panic := by
  decide +kernel

example : ∀ e ∈ hist, e.benign := by
  intro e he
  simp only [hist, List.mem_cons, List.not_mem_nil, or_false] at he
  rcases he with rfl | rfl | rfl | rfl | rfl | rfl | rfl | rfl | rfl <;> simp [Ev.benign, st1, st2]
  refine ⟨by decide, ?_⟩
  intro k ns nr body h
  cases k <;> simp [parseBl, BlAdata.dec, BlData.dec, BlUdata.dec, BlAck.dec, rdHead_run] at h

end Verif.Llc
