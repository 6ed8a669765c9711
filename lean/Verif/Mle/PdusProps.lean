import Verif.Mle.Pdus
/-!
# C38: PDUs of the MLE
-/
namespace Verif.Mle
open Verif.Bits Verif.Codec Verif.TypedFields

theorem c38_mle_d_restore_fail (x : DRestoreFail) (h : x.cause < 4) : RoundTrip DRestoreFail.enc DRestoreFail.dec x := by
  have e : ∀ rest, (rdOptional []).run (false :: rest) = .ok ((), rest) := fun _ => rfl
  exact ⟨toBits 3 5 ++ (toBits 2 x.cause ++ [false]), by simp [DRestoreFail.enc, wBits_ok, h], fun rest => by
    simp [DRestoreFail.dec, run_expectType, Rd.run_bits_append, h, e]⟩

example : (⟨2⟩ : DRestoreFail).cause < 4 := by decide

theorem c38_mle_d_channel_response (x : DChannelResponse) (h1 : x.reason < 8) (h2 : x.delay < 16) (h3 : NumOk 8 x.reserved1)
    (h4 : NumOk 8 x.reserved2) : RoundTrip DChannelResponse.enc DChannelResponse.dec x := by
  obtain ⟨bs, hw, hr⟩ := c09_optional_part DChannelResponse.fields []
    ⟨by simp [Field.id?], by simp, by simp⟩ (x.reserved1, x.reserved2, ())
    ⟨h3.carries (by omega), h4.carries (by omega), trivial⟩
  have hw : wOptional DChannelResponse.fields (x.reserved1, x.reserved2, ()) = .ok bs := hw
  have hr : ∀ rest, (rdOptional DChannelResponse.fields).run (bs ++ rest) = .ok ((x.reserved1, x.reserved2, ()), rest) := hr
  exact ⟨toBits 3 6 ++ (x.accepted :: (toBits 3 x.reason ++ (toBits 4 x.delay ++ bs))), by
    simp [DChannelResponse.enc, hw, wBits_ok, h1, h2], fun rest => by
    simp [DChannelResponse.dec, run_expectType, Rd.run_bits_append, h1, h2, hr]⟩

/-- Everything the broadcast can carry: no neighbour cells. -/
structure DNwrkBroadcast.Ok (x : DNwrkBroadcast) : Prop where
  reselect : x.reselect < 2 ^ 16
  load : x.load < 4
  time : NumOk 48 x.time
  neighbours : ∀ n, x.neighbours = some n → n = 0
  info : x.neighbourInfo = none

theorem c38_mle_d_nwrk_broadcast (x : DNwrkBroadcast) (h : x.Ok) : RoundTrip DNwrkBroadcast.enc DNwrkBroadcast.dec x := by
  obtain ⟨h1, h2, h3, h4, h5⟩ := h
  obtain ⟨r, l, t, n, i⟩ := x
  simp only at h1 h2 h3 h4 h5
  subst h5
  have e : ∀ n, Rd.run (Rd.bits 3) (toBits 3 2 ++ n) = .ok (2, n) := fun n => Rd.run_bits_append (by omega) (by omega) n
  rcases n with _ | n <;> rcases t with _ | t
  · exact ⟨toBits 3 2 ++ (toBits 16 r ++ (toBits 2 l ++ [false])), by simp [DNwrkBroadcast.enc, wBits_ok, h1, h2], fun rest => by
      simp [DNwrkBroadcast.dec, e, Rd.run_bits_append, h1, h2, rdType2]⟩
  · have h3 : t < 2 ^ 48 := h3 t rfl
    exact ⟨toBits 3 2 ++ (toBits 16 r ++ (toBits 2 l ++ (true :: true :: (toBits 48 t ++ [false])))), by
      simp [DNwrkBroadcast.enc, wBits_ok, h1, h2, h3, wType2], fun rest => by
      simp [DNwrkBroadcast.dec, e, Rd.run_bits_append, h1, h2, h3, rdType2]⟩
  · obtain rfl := h4 n rfl
    exact ⟨toBits 3 2 ++ (toBits 16 r ++ (toBits 2 l ++ (true :: false :: true :: toBits 3 0))), by
      simp [DNwrkBroadcast.enc, wBits_ok, h1, h2, wType2], fun rest => by
      simp [DNwrkBroadcast.dec, e, Rd.run_bits_append, h1, h2, rdType2]⟩
  · obtain rfl := h4 n rfl
    have h3 : t < 2 ^ 48 := h3 t rfl
    exact ⟨toBits 3 2 ++ (toBits 16 r ++ (toBits 2 l ++ (true :: true :: (toBits 48 t ++ (true :: toBits 3 0))))), by
      simp [DNwrkBroadcast.enc, wBits_ok, h1, h2, h3, wType2], fun rest => by
      simp [DNwrkBroadcast.dec, e, Rd.run_bits_append, h1, h2, h3, rdType2]⟩

example : (⟨0, 3, some 5, some 0, none⟩ : DNwrkBroadcast).Ok :=
  ⟨by decide, by decide, fun v h => by simp at h; omega, by simp, rfl⟩

/-- The message is written, and its reader aborts on it, whatever follows. -/
def Unreadable {α : Type} (enc : α → Codec.Out (List Bool)) (dec : Rd α) (x : α) : Prop :=
  ∃ bs, enc x = .ok bs ∧ ∀ rest, dec.run (bs ++ rest) = .panic

/-- **Finding (C38).** Neighbour cells of a D-NWRK-BROADCAST make the reader abort. -/
theorem c38_mle_neighbours (r l n : Nat) (t : Option Nat) (hr : r < 2 ^ 16) (hl : l < 4) (ht : NumOk 48 t) (h0 : 0 < n) (hn : n < 8) :
    Unreadable DNwrkBroadcast.enc DNwrkBroadcast.dec ⟨r, l, t, some n, none⟩ := by
  have e : ∀ n, Rd.run (Rd.bits 3) (toBits 3 2 ++ n) = .ok (2, n) := fun n => Rd.run_bits_append (by omega) (by omega) n
  rcases t with _ | t
  · exact ⟨toBits 3 2 ++ (toBits 16 r ++ (toBits 2 l ++ (true :: false :: true :: toBits 3 n))), by
      simp [DNwrkBroadcast.enc, wBits_ok, hr, hl, hn, wType2], fun rest => by
      simp [DNwrkBroadcast.dec, e, Rd.run_bits_append, hr, hl, hn, h0, rdType2]⟩
  · have ht : t < 2 ^ 48 := ht t rfl
    exact ⟨toBits 3 2 ++ (toBits 16 r ++ (toBits 2 l ++ (true :: true :: (toBits 48 t ++ (true :: toBits 3 n))))), by
      simp [DNwrkBroadcast.enc, wBits_ok, hr, hl, ht, hn, wType2], fun rest => by
      simp [DNwrkBroadcast.dec, e, Rd.run_bits_append, hr, hl, ht, hn, h0, rdType2]⟩

/-- No bits at all are read as a message. -/
def NeverReads {α : Type} (p : Rd α) : Prop := ∀ bs v, p.run bs ≠ .ok v

theorem never_abort {α : Type} : NeverReads (Rd.abort : Rd α) := fun bs v h => by simp [Rd.abort] at h

theorem never_bind {α β : Type} {p : Rd α} {f : α → Rd β} (h : ∀ a, NeverReads (f a)) : NeverReads (p >>= f) := by
  intro bs v hv
  rw [Rd.run_bind, Out.bind_eq_ok] at hv
  obtain ⟨⟨a, r⟩, -, hv⟩ := hv
  exact h a r v hv

theorem never_sdu {α : Type} : NeverReads (rdSduThenAbort : Rd α) := never_bind fun _ => never_bind fun _ => never_abort

/-- **Finding (C38).** Seven of the ten message readers of the MLE accept nothing at all. -/
theorem c38_mle_never_read : NeverReads DNewCell.dec ∧ NeverReads DPrepareFail.dec ∧ NeverReads DRestoreAck.dec ∧
    NeverReads UPrepare.dec ∧ NeverReads URestore.dec ∧ NeverReads UChannelClassAdvice.dec ∧ NeverReads DNwrkBroadcastRemove.dec :=
  ⟨never_bind fun _ => never_bind fun _ => never_bind fun _ => never_sdu,
    never_bind fun _ => never_bind fun _ => never_bind fun _ => never_sdu, never_bind fun _ => never_bind fun _ => never_sdu,
    never_bind fun _ => never_bind fun _ => never_bind fun _ => never_abort,
    never_bind fun _ => never_bind fun _ => never_bind fun _ => never_bind fun _ => never_bind fun _ => never_abort,
    never_bind fun _ => never_bind fun _ => never_abort,
    never_bind fun _ => never_bind fun _ => never_bind fun _ => never_bind fun _ => never_abort⟩

/-- **Finding (C38).** They are written all the same, and abort the reader: a mobile which receives D-NEW-CELL, D-PREPARE-FAIL or
D-RESTORE-ACK as this stack writes it, and a base station which receives U-PREPARE, U-RESTORE or U-CHANNEL CLASS ADVICE. -/
theorem c38_mle_unreadable :
    (∀ v < 4, ∃ bs, DNewCell.enc ⟨v, none⟩ = .ok bs ∧ DNewCell.dec.run bs = .panic) ∧
    (∀ v < 4, ∃ bs, DPrepareFail.enc ⟨v, none⟩ = .ok bs ∧ DPrepareFail.dec.run bs = .panic) ∧
    (∃ bs, DRestoreAck.enc ⟨none⟩ = .ok bs ∧ DRestoreAck.dec.run bs = .panic) ∧
    (∀ c, NumOk 5 c → Unreadable UPrepare.enc UPrepare.dec ⟨c, none⟩) ∧
    (∀ a b c, NumOk 10 a → NumOk 14 b → NumOk 14 c → Unreadable URestore.enc URestore.dec ⟨a, b, c, none⟩) ∧
    (∀ n < 4, ∀ d, Unreadable UChannelClassAdvice.enc UChannelClassAdvice.dec ⟨n, none, d, none, none, none⟩) ∧
    (∀ e < 16, ∀ c, NumOk 5 c →
      Unreadable DNwrkBroadcastRemove.enc DNwrkBroadcastRemove.dec ⟨e, c, none, none, none, none, none, none, none, none⟩) := by
  refine ⟨fun v hv => ?_, fun v hv => ?_, ?_, fun c hc => ?_, fun a b c ha hb hc => ?_, fun n hn d => ?_, fun e he c hc => ?_⟩
  · exact ⟨toBits 3 0 ++ (toBits 2 v ++ [false]), by simp [DNewCell.enc, wBits_ok, hv, wSdu], by
      simp [DNewCell.dec, run_expectType, Rd.run_bits_append, hv, rdSduThenAbort]⟩
  · exact ⟨toBits 3 1 ++ (toBits 2 v ++ [false]), by simp [DPrepareFail.enc, wBits_ok, hv, wSdu], by
      simp [DPrepareFail.dec, run_expectType, Rd.run_bits_append, hv, rdSduThenAbort]⟩
  · exact ⟨toBits 3 4 ++ [false], by simp [DRestoreAck.enc, wBits_ok, wSdu], by
      simp [DRestoreAck.dec, run_expectType, rdSduThenAbort]⟩
  · rcases c with _ | c
    · exact ⟨toBits 3 0 ++ [false], by simp [UPrepare.enc, wBits_ok], fun rest => by
        simp [UPrepare.dec, run_expectType, rdType2]⟩
    · have hc : c < 2 ^ 5 := hc c rfl
      exact ⟨toBits 3 0 ++ (true :: true :: (toBits 5 c ++ [false])), by simp [UPrepare.enc, wBits_ok, wType2, hc, wSdu], fun rest => by
        simp [UPrepare.dec, run_expectType, rdType2, Rd.run_bits_append, hc]⟩
  · have ha : ∀ x, a = some x → x < 2 ^ 10 := ha
    have hb : ∀ x, b = some x → x < 2 ^ 14 := hb
    have hc : ∀ x, c = some x → x < 2 ^ 14 := hc
    let el (n : Nat) (o : Option Nat) : List Bool := o.elim [false] fun v => true :: toBits n v
    have w : ∀ n (o : Option Nat), n ≤ 64 → (∀ x, o = some x → x < 2 ^ n) → wType2 true (wBits · n) o = .ok (el n o) := by
      intro n o hn ho
      rcases o with _ | x
      · rfl
      · simp [wType2, wBits_ok hn (ho x rfl), el]
    have r : ∀ n (o : Option Nat) rest, n ≤ 64 → (∀ x, o = some x → x < 2 ^ n) →
        (rdType2 true (Rd.bits n)).run (el n o ++ rest) = .ok (o, rest) := by
      intro n o rest hn ho
      rcases o with _ | x
      · simp [rdType2, el]
      · simp [rdType2, el, Rd.run_bits_append hn (ho x rfl)]
    by_cases hs : a.isSome || b.isSome || c.isSome
    · refine ⟨toBits 3 4 ++ (true :: (el 10 a ++ (el 14 b ++ (el 14 c ++ [false])))), ?_, fun rest => ?_⟩
      · simp [URestore.enc, hs, wBits_ok, w 10 a (by omega) ha, w 14 b (by omega) hb, w 14 c (by omega) hc, wSdu]
      · simp [URestore.dec, run_expectType, r 10 a _ (by omega) ha, r 14 b _ (by omega) hb, r 14 c _ (by omega) hc]
    · exact ⟨toBits 3 4 ++ [false], by simp [URestore.enc, hs, wBits_ok], fun rest => by
        simp [URestore.dec, run_expectType, rdType2]⟩
  · exact ⟨toBits 3 3 ++ (toBits 2 n ++ [d, false]), by simp [UChannelClassAdvice.enc, wBits_ok, hn], fun rest => by
      simp [UChannelClassAdvice.dec, run_expectType, Rd.run_bits_append, hn]⟩
  · rcases c with _ | c
    · exact ⟨toBits 3 7 ++ (toBits 4 e ++ [false]), by simp [DNwrkBroadcastRemove.enc, wBits_ok, he], fun rest => by
        simp [DNwrkBroadcastRemove.dec, run_expectType, Rd.run_bits_append, he, rdType2]⟩
    · have hc : c < 2 ^ 5 := hc c rfl
      exact ⟨toBits 3 7 ++ (toBits 4 e ++ (true :: true :: (toBits 5 c ++ [false, false, false, false, false, false]))), by
        simp [DNwrkBroadcastRemove.enc, wBits_ok, he, hc, wType2, wSdu], fun rest => by
        simp [DNwrkBroadcastRemove.dec, run_expectType, Rd.run_bits_append, he, hc, rdType2]⟩

/-- **Finding (C38).** U-PREPARE and U-RESTORE without optional elements lose the message they carry, without a word: all SDUs are written alike. -/
theorem c38_mle_sdu_lost (s : Option Nat) :
    UPrepare.enc ⟨none, s⟩ = UPrepare.enc ⟨none, none⟩ ∧ URestore.enc ⟨none, none, none, s⟩ = URestore.enc ⟨none, none, none, none⟩ :=
  ⟨rfl, rfl⟩

end Verif.Mle
