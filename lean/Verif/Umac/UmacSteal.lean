import Verif.Umac.UmacBlockProps
import Verif.Umac.UmacRxOut
/-!
# When the upper MAC announces that the second half of a slot is stolen
-/
namespace Verif.Umac
open Verif.Tdma Verif.Codec

/-- A MAC-DATA which says that the second half slot is stolen too: its length indication is 62. -/
def UlPdu.Steals : UlPdu → Prop
  | .data p => p.eventLabel = none ∧ p.lengthInd = some 62
  | _ => False

/-- What is sent while anything but a MAC-DATA is handled. -/
def Calm (out : List UmacOut) : Prop := .secondHalf ∉ out

theorem firstOrWhole_calm {s s' : UmacBs} {c : UlCtx} {a : Addr} {frag : Bool} {sdu : List Bool} {out : List UmacOut}
    (h : s.firstOrWhole c a frag sdu = .ok (s', out)) : Calm out := by
  unfold UmacBs.firstOrWhole at h
  cases frag with
  | false => cases h; unfold Calm; split <;> simp
  | true =>
    simp only [if_true] at h
    rw [Out.bind_eq_ok] at h; obtain ⟨r, _, h⟩ := h
    cases h; simp [Calm]

theorem rxAccess_calm {s : UmacBs} {c : UlCtx} {bits : List Bool} {r : UmacBs × List UmacOut × Option (List Bool)}
    (h : s.rxAccess c bits = .ok r) : Calm r.2.1 := by
  unfold UmacBs.rxAccess at h
  split at h
  · cases h; simp [Calm]
  · cases h
  · split at h
    · cases h; simp [Calm]
    · split at h
      · cases h
      · rw [Out.bind_eq_ok] at h; obtain ⟨sdu, _, h⟩ := h
        split at h
        · cases h; simp [Calm]
        · rw [Out.bind_eq_ok] at h; obtain ⟨s1, _, h⟩ := h
          split at h
          · cases h; simp [Calm]
          · rw [Out.bind_eq_ok] at h; obtain ⟨s2, _, h⟩ := h
            dsimp only at h
            split at h
            · cases h; simp [Calm]
            · rw [Out.bind_eq_ok] at h; obtain ⟨q, h2, h⟩ := h
              cases h
              exact firstOrWhole_calm (out := q.2) h2

theorem rxFrag_calm {s : UmacBs} {c : UlCtx} {bits : List Bool} {r : UmacBs × List UmacOut × Option (List Bool)}
    (h : s.rxFrag c bits = .ok r) : Calm r.2.1 := by
  unfold UmacBs.rxFrag at h
  split at h
  · cases h; simp [Calm]
  · cases h
  · rw [Out.bind_eq_ok] at h; obtain ⟨sdu, _, h⟩ := h
    rw [Out.bind_eq_ok] at h; obtain ⟨o, _, h⟩ := h
    cases o with
    | none => cases h; simp [Calm]
    | some ssi =>
      simp only at h
      rw [Out.bind_eq_ok] at h; obtain ⟨q, _, h⟩ := h
      cases h; simp [Calm]

theorem rxEnd_calm {s : UmacBs} {c : UlCtx} {bits : List Bool} {pos : Nat} {fill : Bool} {li re : Option Nat}
    {r : UmacBs × List UmacOut × Option (List Bool)} (h : s.rxEnd c bits pos fill li re = .ok r) : Calm r.2.1 := by
  unfold UmacBs.rxEnd at h
  rw [Out.bind_eq_ok] at h; obtain ⟨sdu, _, h⟩ := h
  rw [Out.bind_eq_ok] at h; obtain ⟨o, _, h⟩ := h
  cases o with
  | none => cases h; simp [Calm]
  | some ssi =>
    simp only at h
    rw [Out.bind_eq_ok] at h; obtain ⟨q, _, h⟩ := h
    cases hq : q.2 with
    | none => rw [hq] at h; cases h; simp [Calm]
    | some b =>
      rw [hq] at h
      simp only at h
      rw [Out.bind_eq_ok] at h; obtain ⟨s2, _, h⟩ := h
      cases h; simp [Calm]

theorem rxEndUl_calm {s : UmacBs} {c : UlCtx} {bits : List Bool} {r : UmacBs × List UmacOut × Option (List Bool)}
    (h : s.rxEndUl c bits = .ok r) : Calm r.2.1 := by
  unfold UmacBs.rxEndUl at h
  split at h
  · cases h; simp [Calm]
  · cases h
  · exact rxEnd_calm h

theorem rxEndHu_calm {s : UmacBs} {c : UlCtx} {bits : List Bool} {r : UmacBs × List UmacOut × Option (List Bool)}
    (h : s.rxEndHu c bits = .ok r) : Calm r.2.1 := by
  unfold UmacBs.rxEndHu at h
  split at h
  · cases h; simp [Calm]
  · cases h
  · split at h
    · cases h; simp [Calm]
    · exact rxEnd_calm h

theorem rxData_steals {s : UmacBs} {c : UlCtx} {bits : List Bool} {r : UmacBs × List UmacOut × Option (List Bool)}
    (h : s.rxData c bits = .ok r) : .secondHalf ∈ r.2.1 ↔ (headed .data (MacData.dec.run bits)).Steals := by
  unfold UmacBs.rxData at h
  cases hd : MacData.dec.run bits with
  | err => rw [hd] at h; cases h; simp [headed, UlPdu.Steals]
  | panic => rw [hd] at h; cases h
  | ok q =>
    obtain ⟨p, rest⟩ := q
    rw [hd] at h
    simp only [headed, UlPdu.Steals] at h ⊢
    cases hl : p.eventLabel with
    | some l => rw [hl] at h; cases h; simp
    | none =>
      rw [hl] at h
      simp only [Option.isSome_none, Bool.false_eq_true, if_false, true_and] at h ⊢
      cases ha : p.addr with
      | none => rw [ha] at h; cases h
      | some a =>
        rw [ha] at h
        simp only at h
        rw [Out.bind_eq_ok] at h; obtain ⟨k, hk, h⟩ := h
        have hsec : k.2.2.1 = true ↔ p.lengthInd = some 62 := by
          unfold MacData.lengthOf at hk
          cases hli : p.lengthInd with
          | none =>
            rw [hli] at hk
            simp only at hk
            cases hf : p.fragFlag with
            | none => rw [hf] at hk; cases hk
            | some f => rw [hf] at hk; cases hk; simp
          | some l =>
            rw [hli] at hk
            simp only at hk
            split at hk
            · cases hk; simp_all
            · split at hk
              · cases hk; simp; omega
              · split at hk
                · cases hk; simp_all
                · split at hk
                  · cases hk; simp_all
                  · cases hk
        have mem : ∀ l : List UmacOut, Calm l → (.secondHalf ∈ (if k.2.2.1 then [UmacOut.secondHalf] else []) ++ l ↔ p.lengthInd = some 62) := by
          intro l hl
          rw [← hsec]
          cases k.2.2.1 with
          | true => simp
          | false => simpa [Calm] using hl
        rw [Out.bind_eq_ok] at h; obtain ⟨sdu, _, h⟩ := h
        by_cases h0 : k.2.2.2 = true
        · rw [if_pos h0] at h; cases h; simpa using mem [] (by simp [Calm])
        · rw [if_neg h0] at h
          by_cases h3 : p.encrypted = true
          · rw [if_pos h3] at h; cases h; simpa using mem [] (by simp [Calm])
          · rw [if_neg h3, Out.bind_eq_ok] at h; obtain ⟨s1, h1, h⟩ := h
            rw [Out.bind_eq_ok] at h; obtain ⟨q, h2, h⟩ := h
            cases h
            exact mem _ (firstOrWhole_calm (out := q.2) h2)

/-- One PDU. -/
theorem rxPdu_steals {s : UmacBs} {c : UlCtx} {bits : List Bool} {r : UmacBs × List UmacOut × Option (List Bool)}
    (h : s.rxPdu c bits = .ok r) : .secondHalf ∈ r.2.1 ↔ (ulPdu c.chan bits).Steals := by
  have calm : Calm r.2.1 → ¬ (ulPdu c.chan bits).Steals → (.secondHalf ∈ r.2.1 ↔ (ulPdu c.chan bits).Steals) := fun h1 h2 => iff_of_false h1 h2
  have hd : ∀ {α : Type} (f : α → UlPdu) (o : Out (α × List Bool)), (∀ a, ¬ (f a).Steals) → ¬ (headed f o).Steals := by
    intro α f o hf
    cases o with
    | ok q => exact hf q.1
    | err => exact fun h => h
    | panic => exact fun h => h
  match bits, h, calm with
  | [], h, calm => cases h; exact calm (by simp [Calm]) (by cases c.chan <;> exact fun h => h)
  | [b0], h, calm =>
    cases h
    refine calm (by simp [Calm]) ?_
    cases c.chan <;> cases b0 <;> first | exact fun h => h | exact hd _ _ (fun _ h => h)
  | [b0, b1], h, calm =>
    cases h
    refine calm (by simp [Calm]) ?_
    cases c.chan <;> cases b0 <;> cases b1 <;> first | exact fun h => h | exact hd _ _ (fun _ h => h) | skip
    all_goals exact id
  | b0 :: b1 :: b2 :: t, h, calm =>
    unfold UmacBs.rxPdu at h
    simp only at h
    cases hc : c.chan with
    | schHu =>
      rw [hc] at h calm
      simp only [if_true] at h
      cases b0 with
      | true => exact calm (rxEndHu_calm h) (hd _ _ (fun _ h => h))
      | false => exact calm (rxAccess_calm h) (hd _ _ (fun _ h => h))
    | schF =>
      rw [hc] at h calm
      simp only [reduceCtorEq, if_false] at h
      cases b0 with
      | false =>
        cases b1 with
        | false => simp only [if_true] at h; exact rxData_steals h
        | true =>
          cases b2 with
          | true => exact calm (rxEndUl_calm h) (hd _ _ (fun _ h => h))
          | false => exact calm (rxFrag_calm h) (fun h => h)
      | true =>
        cases b1 with
        | false => cases h; exact calm (by simp [Calm]) (fun h => h)
        | true =>
          cases b2 with
          | true => cases h; exact calm (by simp [Calm]) (fun h => h)
          | false =>
            refine calm ?_ (hd _ _ (fun _ h => h))
            simp only [reduceCtorEq, Bool.false_eq_true, if_false] at h
            unfold UmacBs.rxBlck at h
            split at h <;> cases h
            simp [Calm]
    | stch =>
      rw [hc] at h calm
      simp only [reduceCtorEq, if_false] at h
      cases b0 with
      | false =>
        cases b1 with
        | false => simp only [if_true] at h; exact rxData_steals h
        | true =>
          cases b2 with
          | true => exact calm (rxEndUl_calm h) (hd _ _ (fun _ h => h))
          | false => exact calm (rxFrag_calm h) (fun h => h)
      | true =>
        cases b1 with
        | false => cases h; exact calm (by simp [Calm]) (fun h => h)
        | true =>
          refine calm ?_ (by cases b2 <;> exact fun h => h)
          simp only [Bool.true_eq_false, if_false, if_true] at h
          unfold UmacBs.rxSignal at h
          split at h
          · cases h; simp [Calm]
          · cases h
          · cases h
            unfold Calm
            dsimp only
            split <;> simp

/-- A block which begins with such a MAC-DATA announces the second half. -/
theorem rxBlock_steals {s s' : UmacBs} {c : UlCtx} {bits : List Bool} {out : List UmacOut} (h : s.step (.block c bits) = .ok (s', out))
    (hs : (ulPdu c.chan bits).Steals) : .secondHalf ∈ out := by
  simp only [UmacBs.step, UmacBs.rxBlock] at h
  split at h
  · cases hn : bits.length with
    | zero =>
      have := List.eq_nil_of_length_eq_zero hn
      subst this
      cases hc : c.chan <;> rw [hc] at hs <;> exact hs.elim
    | succ n =>
      rw [hn] at h
      simp only [UmacBs.rxLoop] at h
      rw [Out.bind_eq_ok] at h; obtain ⟨r, hr, h⟩ := h
      have := (rxPdu_steals hr).2 hs
      cases hk : r.2.2 with
      | none => rw [hk] at h; cases h; exact this
      | some rest =>
        rw [hk] at h
        simp only at h
        split at h
        · rw [Out.bind_eq_ok] at h; obtain ⟨q, _, h⟩ := h
          cases h; exact List.mem_append_left _ this
        · cases h; exact this
  · cases h

/-- Nothing else does. -/
theorem loop_steals {x : Time} {c : UlCtx} (hx : c.x.valid) {n : Nat} {s : UmacBs} (h : View x s.log s.sched) {bits : List Bool}
    (hb : ∀ p ∈ pdusIn n c.chan bits, ¬ p.Bad) {r : UmacBs × List UmacOut} (hr : UmacBs.rxLoop n s c bits = .ok r) (hs : .secondHalf ∈ r.2) :
    ∃ p ∈ pdusIn n c.chan bits, p.Steals := by
  induction n generalizing s bits r with
  | zero => cases hr; simp at hs
  | succ n ih =>
    obtain ⟨q, hq, hrest⟩ := pdu_total h hx (bits := bits) (hb _ (by simp [pdusIn]))
    have v1 := h.rx hx.1 hx.2.1 (rxPdu_rx hq)
    simp only [UmacBs.rxLoop, hq, Out.bind_ok] at hr
    have here : .secondHalf ∈ q.2.1 → ∃ p ∈ pdusIn (n + 1) c.chan bits, p.Steals := fun h =>
      ⟨_, by simp [pdusIn], (rxPdu_steals hq).1 h⟩
    cases hk : q.2.2 with
    | none => rw [hk] at hr; cases hr; exact here hs
    | some rest =>
      rw [hk] at hr
      simp only at hr
      split at hr
      · rename_i hc
        rw [Out.bind_eq_ok] at hr; obtain ⟨w, hw, hr⟩ := hr
        cases hr
        rcases List.mem_append.1 hs with hs | hs
        · exact here hs
        · rcases hrest rest hk with h16 | ⟨l, hl, rfl⟩
          · omega
          · have sub : ∀ p ∈ pdusIn n c.chan (bits.drop (l * 8)), p ∈ pdusIn (n + 1) c.chan bits := fun p hp => by
              simp only [pdusIn, hl, if_pos hc.1, List.mem_cons]
              exact Or.inr hp
            obtain ⟨p, hp, hps⟩ := ih v1 (fun p hp => hb p (sub p hp)) hw hs
            exact ⟨p, sub p hp, hps⟩
      · cases hr; exact here hs

/-- Voice from the uplink of a timeslot never aborts. -/
theorem voiceUp_total (s : UmacBs) {ts : Nat} (h1 : 1 ≤ ts) (h4 : ts ≤ 4) (data : List Nat) : ∃ r, s.voiceUp ts data = .ok r := by
  obtain ⟨i, rfl⟩ : ∃ i : Fin 4, ts = i.val + 1 := ⟨⟨ts - 1, by omega⟩, by simp; omega⟩
  unfold UmacBs.voiceUp
  simp only [CircuitMgr.isActive, Slots.idx_succ, Res.bind_ok, Out.ofRes_ok, Out.bind_ok]
  cases hd : (s.sched.circuits.dl i).isSome with
  | false => exact ⟨_, rfl⟩
  | true =>
    simp only [if_true]
    split
    · rename_i b _
      have : ∃ q, (s.heard (i.val + 1) (some s.now)).call (.voice (i.val + 1) b) = .ok q := by
        unfold UmacBs.call Sched.step
        simp only [CircuitMgr.putBlock, Slots.idx_succ, Res.bind_ok]
        split <;> exact ⟨_, rfl⟩
      obtain ⟨q, hq⟩ := this
      rw [hq]
      exact ⟨_, rfl⟩
    · exact ⟨_, rfl⟩

end Verif.Umac
