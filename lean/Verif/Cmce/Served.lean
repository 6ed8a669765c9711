import Verif.Cmce.CmceBsProps
import Verif.Cmce.CallMembersProps
/-!
# A call set up by a station: what call control sends, bit by bit

C28 (service) and C57 (bits) in one statement about the entity which reads and writes bits; used for C99.
-/
namespace Verif.Cmce
open Verif.Bits Verif.Codec Verif.TypedFields Tdma Pdu

/-- The affiliations and registrations call control was told of. -/
def updatesIn (h : List (BsEv × List BsOut)) : List SubUpdate := h.filterMap fun x => match x.1 with
  | .update u => some u
  | _ => none

theorem reads_updates {h : List (BsEv × List BsOut)} {h' : List (CcEv × List CcOut)} (hr : Reads h h') : updates h' = updatesIn h := by
  have one : ∀ e c, Means e c → (match c with | .update u => some u | _ => none) = (match e with | BsEv.update u => some u | _ => none) := by
    intro e c hm
    cases e with
    | mobile ssi sdu => rcases hm with ⟨_, _, _, _, _, rfl⟩ | ⟨_, _, _, rfl⟩ | ⟨_, _, _, rfl⟩ | ⟨_, _, _, rfl⟩ | ⟨_, _, _, rfl⟩ <;> rfl
    | sdsFromBrew _ _ _ => cases hm
    | _ => cases hm; rfl
  induction hr with
  | nil => rfl
  | @call h h' e out c _ hm ih =>
    have := one e c hm
    simp only [updates, updatesIn, List.filterMap_append] at ih ⊢
    rw [ih]
    have one (α β : Type) (f : α → Option β) (x : α) : List.filterMap f [x] = (f x).toList := by cases h : f x <;> simp [h]
    rw [one, one]
    exact congrArg (fun o => _ ++ Option.toList o) this
  | @aside h h' e out _ hm _ ih =>
    simp only [updatesIn, List.filterMap_append, List.filterMap_cons, List.filterMap_nil] at ih ⊢
    rw [ih]
    cases e with
    | update u => exact absurd rfl (hm (.update u))
    | _ => simp

/-- The state before an event of a history. -/
theorem bsRun_split {r : Nat → Bool} {h h1 h2 : List (BsEv × List BsOut)} {s : Bs} (hr : BsRun r h s) {e : BsEv} {out : List BsOut}
    (he : h = h1 ++ (e, out) :: h2) : ∃ b b' v, BsRun r h1 b ∧ e.Sane r ∧ b.step v e = .ok (b', out) := by
  induction hr generalizing h2 with
  | init => simp at he
  | reorder _ _ ih => exact ih he
  | @step h s s' v e' out' hrun hs hst ih =>
    rcases List.eq_nil_or_concat h2 with rfl | ⟨l, x, rfl⟩
    · obtain ⟨rfl, h4⟩ := List.append_inj' he rfl
      cases h4
      exact ⟨_, _, _, hrun, hs, hst⟩
    · have h3 : h ++ [(e', out')] = (h1 ++ (e, out) :: l) ++ [x] := by rw [he]; simp
      exact ih (List.append_inj' h3 rfl).1

/-- A supported request for a call to a group somebody listens to, while a traffic timeslot has no call: what call control sends, in full. -/
theorem served_out {r : Nat → Bool} {h : List (CcEv × List CcOut)} {s : Cc} (hr : CcRun r h s) (hn : NoReuse (messages h))
    {caller g comm : Nat} (hl : s.hasListener g = true) {ts : Nat} (hts : 2 ≤ ts ∧ ts ≤ 4)
    (hfree : ∀ id g u, heard (messages h) id ≠ some (g, u, ts)) :
    ∃ s' id u ts' rest, s.step (.uSetup caller true (some g) comm) =
        .ok (s', .open ⟨.both, ts', u, 0, some 0, false⟩ :: .dCallProceeding (.station caller) id ::
          .dConnect (.station caller) id .granted true (some (u, ts')) :: .dSetup (.group g) id .grantedToOther caller (u, ts') :: rest) ∧
      2 ≤ ts' ∧ ts' ≤ 4 ∧ ∀ id g u, heard (messages h) id ≠ some (g, u, ts') := by
  have hi := ccRun_inv hr
  obtain ⟨h1, h2, h3, h4⟩ := c28_heard hr hn
  have hf := (h4 ts).2 hfree
  have hd : s.mgr.dl ⟨ts - 1, by omega⟩ = none := by
    have := hi.alloc.2 ⟨ts - 1, by omega⟩
    have e : ts - 1 + 1 = ts := by omega
    simp only [e, hf] at this
    split at this
    · cases this
    · rename_i hn; simpa using hn
  rcases allocateWith_cases hi comm with ⟨_, hfull⟩ | ⟨a, i, k, e1, e2, e3, e4, e5⟩
  · have := hfull ⟨ts - 1, by omega⟩ (by intro e; have := congrArg Fin.val e; simp at this; omega)
    rw [hd] at this; cases this
  · have h0 : i.val ≠ 0 := fun e => e2 (Fin.ext e)
    have hkts : k.ts = i.val + 1 := by rw [e4]
    have hstep : ∃ s', s.step (.uSetup caller true (some g) comm) =
        .ok (s', startOut s.routable k ⟨.ms caller, g, caller, i.val + 1, k.usage, true, none, none⟩) := by
      simp only [Cc.step, Cc.setup, hl, if_true, e5, Res.bind_ok, Cc.openLocal, startOut, hkts, Slots.idx_succ]
      exact ⟨_, rfl⟩
    obtain ⟨s', hstep⟩ := hstep
    refine ⟨s', k.callId, k.usage, i.val + 1, if s.routable g then [.netGranted k.callId caller g k.ts] else [], ?_, by omega, by omega, ?_⟩
    · rw [hstep]
      have hm : k.mac = ⟨.both, i.val + 1, k.usage, 0, some 0, false⟩ := by rw [e4]; rfl
      simp only [startOut, hm, hkts, List.cons_append, List.nil_append]
    · apply (h4 _).1
      rw [hi.alloc.2, e3]; rfl

theorem expectBits_inj {w : Out (List Bool)} {a b : List Bool} (h : expectBits w = .ok a) (h' : expectBits w = .ok b) : a = b := by
  rw [h] at h'; cases h'; rfl

theorem decoded_run {α : Type} {dec : Rd α} {bs : List Bool} {x : α} (h : decoded dec bs = some x) : dec.run bs = .ok (x, []) := by
  unfold decoded at h
  split at h
  · rename_i y hy; cases h; exact hy
  · cases h

/-- A request for a call which is served: the messages, as bits. -/
theorem setup_served {r : Nat → Bool} {h : List (BsEv × List BsOut)} {b b' : Bs} {v : SdsView} {caller : Nat} {sdu : List Bool} {out : List BsOut}
    (hr : BsRun r h b) (hsane : (BsEv.mobile caller sdu).Sane r) (hs : b.step v (.mobile caller sdu) = .ok (b', out))
    {x : USetup} {rest : List Bool} (hd : USetup.dec.run sdu = .ok (x, rest)) (hx : Serveable x) {g : Nat} (hg : x.called.ssi = some g)
    (hn : NoReuse (heardIn h)) (ha : ∃ i, affiliated (updatesIn h) i g = true) {ts : Nat} (hts : 2 ≤ ts ∧ ts ≤ 4)
    (hfree : ∀ id g u, heard (heardIn h) id ≠ some (g, u, ts)) :
    ∃ id u ts' b1 b2 b3 more dp dc ds, out = .signal (.open ⟨.both, ts', u, 0, some 0, false⟩) ::
        .air (.station caller) .acknowledged none false b1 :: .air (.station caller) .unacknowledged (some (some u, ts')) false b2 ::
        .air (.group g) .unacknowledged (some (some u, ts')) false b3 :: more ∧
      2 ≤ ts' ∧ ts' ≤ 4 ∧ (∀ id g u, heard (heardIn h) id ≠ some (g, u, ts')) ∧
      DCallProceeding.dec.run b1 = .ok (dp, []) ∧ dp.callId = id ∧
      DConnect.dec.run b2 = .ok (dc, []) ∧ dc.callId = id ∧ dc.grant = 0 ∧ dc.ownership = true ∧
      DSetup.dec.run b3 = .ok (ds, []) ∧ ds.callId = id ∧ ds.grant = 3 ∧ ds.callingSsi = some caller ∧
      ds.basicService = x.basicService ∧ ds.priority = x.priority := by
  have hi := bsRun_inv hr
  obtain ⟨h', k1, k2⟩ := hi.reads
  rw [← reads_updates k1] at ha
  rw [← reads_messages k1] at hn hfree
  have hm : Means (.mobile caller sdu) (.uSetup caller true x.called.ssi x.basicService.communication) :=
    .inl ⟨x, rest, true, hd, by simp [hx], rfl⟩
  rw [hg] at hm
  obtain ⟨c, o1, o2, m1, m2, m3, m4⟩ : ∃ c o1 o2, Means (.mobile caller sdu) c ∧ b.call c (asks (.mobile caller sdu)) = .ok (b', o1) ∧ out = o1 ++ o2 ∧
      ∀ x ∈ o2, hear x = none ∧ hearSetup x = none := by
    rcases step_cases hs with h | ⟨h, _⟩
    · exact h
    · exact absurd hm (h _)
  have := c57_meaning_unique hm m1
  subst this
  have hask : asks (.mobile caller sdu) = ⟨x.basicService, x.priority⟩ := by simp [asks, hd]
  obtain ⟨q1, _, q3, q4, q5, q6⟩ := call_inv hi (means_fits hm hsane).1 (asks_ok _) m2
  obtain ⟨s', id, u, ts', more, w1, w2, w3, w4⟩ := served_out (caller := caller) (comm := x.basicService.communication) k2 hn ((c30_listener k2 g).2 ha) hts hfree
  rw [q1] at w1
  obtain ⟨_, w5⟩ := Prod.mk.inj (Res.ok.inj w1)
  have hnew : newCall (o1.filterMap hear) = some id := by rw [w5]; rfl
  have hasked := q4 id
  rw [if_pos hnew, hask] at hasked
  rw [w5] at q5 q6
  obtain ⟨a0, e0, q5⟩ := Res.bind_eq_ok.1 q5
  obtain ⟨l0, f0, q5⟩ := Res.bind_eq_ok.1 q5
  obtain ⟨a1, e1, f0⟩ := Res.bind_eq_ok.1 f0
  obtain ⟨l1, f1, f0⟩ := Res.bind_eq_ok.1 f0
  obtain ⟨a2, e2, f1⟩ := Res.bind_eq_ok.1 f1
  obtain ⟨l2, f2, f1⟩ := Res.bind_eq_ok.1 f1
  obtain ⟨a3, e3, f2⟩ := Res.bind_eq_ok.1 f2
  obtain ⟨l3, f3, f2⟩ := Res.bind_eq_ok.1 f2
  cases f2; cases f1; cases f0; cases q5; cases e0
  obtain ⟨b1, p1, g1⟩ := Res.bind_eq_ok.1 e1
  obtain ⟨b2, p2, g2⟩ := Res.bind_eq_ok.1 e2
  obtain ⟨b3, p3, g3⟩ := Res.bind_eq_ok.1 e3
  cases g1; cases g2; cases g3
  have hid : id < 2 ^ 14 := q6 (.dCallProceeding (.station caller) id) (by simp)
  have hca : (CcOut.dSetup (.group g) id .grantedToOther caller (u, ts')).Fits := q6 _ (by simp)
  simp only [CcOut.announces, Option.bind_some, hasked] at p3
  obtain ⟨c1, y1, _, z1⟩ := pduHeard (c38_cmce_d_call_proceeding (dCallProceedingPdu id)
    ⟨hid, (by decide : (4:Nat) < 2 ^ 3), by simp [dCallProceedingPdu], by simp [dCallProceedingPdu], by simp [NumOk, dCallProceedingPdu],
      by simp [RawOk, dCallProceedingPdu], by simp [RawOk, dCallProceedingPdu]⟩) rfl
  obtain ⟨c2, y2, _, z2⟩ := pduHeard (c38_cmce_d_connect (dConnectPdu id .granted true)
    ⟨hid, (by decide : (7:Nat) < 2 ^ 4), grant_lt .granted, by simp [NumOk, dConnectPdu], by simp [dConnectPdu], by simp [NumOk, dConnectPdu],
      by simp [NumOk, dConnectPdu], by simp [RawOk, dConnectPdu], by simp [RawOk, dConnectPdu]⟩) rfl
  obtain ⟨c3, y3, _, z3⟩ := dSetup_heard (id := id) (caller := caller) .grantedToOther hid hca.2 (hask ▸ asks_ok (.mobile caller sdu))
  cases expectBits_inj p1 y1
  cases expectBits_inj p2 y2
  cases expectBits_inj p3 y3
  rw [reads_messages k1] at w4
  exact ⟨id, u, ts', b1, b2, b3, l3 ++ o2, _, _, _, by rw [m3]; rfl, w2, w3, w4, decoded_run z1, rfl, decoded_run z2, rfl, rfl, rfl,
    decoded_run z3, rfl, rfl, rfl, rfl, rfl⟩

end Verif.Cmce
