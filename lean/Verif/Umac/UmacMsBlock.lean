import Verif.Umac.UmacMsRound
import Verif.Umac.SchedLive
import Verif.Phy.Burst
/-!
# How the upper MAC of a mobile station reads a block built by the channel scheduler
-/
namespace Verif.Umac
open Verif.Bits Verif.Codec Verif.Tdma Verif.Mle

/-- A message as a station should get it: the address, the length of its header and its content. -/
structure Wanted where
  addr : Addr
  hdr : Nat
  sdu : List Bool

/-- What a station passes up, when these messages have been sent: each message once, in this order. An empty message is not
passed up. A message which ends between one and four bits after a byte boundary may be cut short. -/
inductive Heard (sc : Nat) : List Wanted → List MsOut → Prop
  | nil : Heard sc [] []
  | whole {m : Wanted} {ms : List Wanted} {outs : List MsOut} (h : Heard sc ms outs) :
      Heard sc (m :: ms) ((if m.sdu = [] then [] else [.sdu m.addr m.sdu sc]) ++ outs)
  | short {m : Wanted} {ms : List Wanted} {outs : List MsOut} (k : Nat) (got : List Bool) (hk : (m.hdr + m.sdu.length) % 8 = k)
      (hs : Short k m.sdu got) (h : Heard sc ms outs) :
      Heard sc (m :: ms) ((if got = [] then [] else [.sdu m.addr got sc]) ++ outs)

/-- The messages reported as transmitted. -/
def told (want : Nat → Option Wanted) (rs : List Report) : List Wanted :=
  rs.filterMap fun
    | .transmitted id => want id
    | .discarded _ => none

theorem told_append (want : Nat → Option Wanted) (a b : List Report) : told want (a ++ b) = told want a ++ told want b := by
  simp [told]

/-- Part of it has been sent. -/
def DlElem.begun (e : DlElem) : Bool :=
  match e.fragger with
  | some (f, _) => f.hdrWritten
  | none => false

theorem begun_eq {e : DlElem} {f : Fragger} {o : Owner} (h : e.fragger = some (f, o)) : e.begun = f.hdrWritten := by
  simp [DlElem.begun, h]

/-- The station has what has been sent of `e`. -/
def Holds (d : DefragBuf) (e : DlElem) : Prop :=
  ∀ f o, e.fragger = some (f, o) → f.hdrWritten = true →
    d.state = .active ∧ f.resource.onAir.addr = some d.addr ∧ d.bits = f.sdu.take f.pos

/-- The work carries a wanted message, or one of the scheduler's own (`own`: there may be such). -/
structure Carry (own : Prop) (want : Nat → Option Wanted) (f : Fragger) (o : Owner) : Prop where
  plain : f.resource.encryptionMode = 0
  short : f.sdu.length ≤ 4096
  more : f.hdrWritten = true → f.sdu ≠ []
  what : (o = .internal ∧ own ∧ f.sdu = [] ∧ f.hdrWritten = false ∧ ∃ a, f.resource.onAir.addr = some a) ∨
    ∃ id m, o = .msg id true ∧ want id = some m ∧ f.resource.onAir.addr = some m.addr ∧ f.sdu = m.sdu ∧
      ∀ n, f.resource.headerLen = .ok n → n % 8 = m.hdr % 8

def DlElem.Carries (own : Prop) (want : Nat → Option Wanted) (e : DlElem) : Prop := ∀ f o, e.fragger = some (f, o) → Carry own want f o

theorem Carry.addr {own : Prop} {want : Nat → Option Wanted} {f : Fragger} {o : Owner} (h : Carry own want f o) :
    ∃ a, f.resource.onAir.addr = some a := by
  rcases h.what with ⟨_, _, _, _, h⟩ | ⟨_, m, _, _, h, _⟩
  · exact h
  · exact ⟨_, h⟩

/-- Some message, or an acknowledgement or grant on its own, has less than four bits. -/
def Tiny (es : List DlElem) : Prop := ∃ e ∈ es, ∃ f o, e.fragger = some (f, o) ∧ f.sdu.length < 4

/-- What reading comes to. -/
def Outcome {α : Type} (bad : Prop) (P : α → Prop) : Out α → Prop
  | .ok x => P x
  | .panic => bad
  | .err => False

theorem Outcome.mono {α : Type} {bad bad' : Prop} {P P' : α → Prop} {m : Out α} (h : Outcome bad P m) (hb : bad → bad')
    (hp : ∀ x, P x → P' x) : Outcome bad' P' m := by
  cases m with
  | ok x => exact hp x h
  | panic => exact hb h
  | err => exact h

theorem Outcome.bind {α β : Type} {bad : Prop} {P : α → Prop} {Q : β → Prop} {m : Out α} {f : α → Out β} (h : Outcome bad P m)
    (hp : ∀ x, P x → Outcome bad Q (f x)) : Outcome bad Q (m >>= f) := by
  cases m with
  | ok x => exact hp x h
  | panic => exact h
  | err => exact h

/-- The loop, if there is anything to read. -/
def UmacMs.more (t : Time) (sc n : Nat) (s : UmacMs) (bs : List Bool) : Out (UmacMs × List MsOut) :=
  if 16 ≤ bs.length then UmacMs.loop t sc n s bs else .ok (s, [])

theorem more_some {t : Time} {sc n : Nat} {s s1 : UmacMs} {bs rest : List Bool} {o1 : List MsOut}
    (h : s.round t sc bs = .ok (s1, o1, some rest)) (h16 : 16 ≤ bs.length) (hl : rest.length < bs.length) :
    UmacMs.more t sc (n + 1) s bs = (do let q ← UmacMs.more t sc n s1 rest; .ok (q.1, o1 ++ q.2)) := by
  simp only [UmacMs.more, if_pos h16, UmacMs.loop, h, Out.bind_ok]
  by_cases hr : 16 ≤ rest.length
  · rw [if_pos ⟨hl, hr⟩, if_pos hr]
  · rw [if_neg (by omega), if_neg hr]; simp

theorem more_none {t : Time} {sc n : Nat} {s s1 : UmacMs} {bs : List Bool} {o1 : List MsOut}
    (h : s.round t sc bs = .ok (s1, o1, none)) (h16 : 16 ≤ bs.length) : UmacMs.more t sc (n + 1) s bs = .ok (s1, o1) := by
  simp only [UmacMs.more, if_pos h16, UmacMs.loop, h, Out.bind_ok]

theorem more_panic {t : Time} {sc n : Nat} {s : UmacMs} {bs : List Bool}
    (h : s.round t sc bs = .panic) (h16 : 16 ≤ bs.length) : UmacMs.more t sc (n + 1) s bs = .panic := by
  simp only [UmacMs.more, if_pos h16, UmacMs.loop, h]; rfl

theorem more_short {t : Time} {sc n : Nat} {s : UmacMs} {bs : List Bool} (h : bs.length < 16) :
    UmacMs.more t sc n s bs = .ok (s, []) := by
  simp [UmacMs.more, show ¬ 16 ≤ bs.length by omega]

/-- In a full block nothing moves. -/
theorem round_full {es : List DlElem} {b b' : Blk} {rs : List (Fragger × List Bool)} (h : Round es b rs b')
    (hg : ∀ e ∈ es, e.Good) (hr : b.remaining < 16) :
    (leftOver es rs).countP DlElem.begun = es.countP DlElem.begun := by
  induction h with
  | nil => rfl
  | @cons e f o es b b' f' new rs he hb h1 h2 h3 ih =>
    have hok := good_fragger (hg e (by simp)) he
    have hnew : new = [] ∧ f' = f := by
      cases h2 with
      | idle => exact ⟨rfl, rfl⟩
      | whole hdr n r hw hr' he' hd h16 hfit => simp only [List.length_append] at hfit; omega
      | start hdr n r hw hr' he' hd hn hfull hlen h32 => omega
      | frag n k hw hn hp hfull hl h16 => omega
      | fin k len hw hlen hl hfit => omega
    obtain ⟨rfl, rfl⟩ := hnew
    have := ih (fun e he => hg e (by simp [he])) (by simpa [Blk.remaining] using hr)
    rw [leftOver_cons, hok.busy]
    simp only [Bool.false_eq_true, if_false, List.singleton_append, List.countP_cons, this, begun_eq he]
    rfl

/-- Work left over carries what it carried. -/
theorem Carry.step {own : Prop} {want : Nat → Option Wanted} {f f' : Fragger} {o : Owner} {b : Blk} {new : List Bool} (h : Carry own want f o)
    (hs : Step f b f' new) (hd : f'.done = false) (hf : f.done = false) : Carry own want f' o := by
  obtain ⟨h1, h2, h0, h3⟩ := h
  cases hs with
  | idle => exact ⟨h1, h2, h0, h3⟩
  | whole => cases hd
  | start hdr n r hw hr he _ hn hfull hlen h32 hbig =>
    subst hr
    refine ⟨h1, h2, fun _ h => by
      have h' : f.sdu = [] := h
      rw [h', List.length_nil] at hbig; omega, ?_⟩
    rcases h3 with ⟨_, _, h4, _⟩ | h3
    · rw [h4] at hbig; simp at hbig; omega
    · exact .inr h3
  | frag n k hw =>
    refine ⟨h1, h2, h0, ?_⟩
    rcases h3 with ⟨_, _, _, h4, _⟩ | h3
    · rw [h4] at hw; cases hw
    · exact .inr h3
  | fin => cases hd

theorem round_carries {own : Prop} {want : Nat → Option Wanted} {es : List DlElem} {b b' : Blk} {rs : List (Fragger × List Bool)}
    (h : Round es b rs b') (hg : ∀ e ∈ es, e.Good) (hc : ∀ e ∈ es, e.Carries own want) : ∀ e ∈ leftOver es rs, e.Carries own want := by
  induction h with
  | nil => simp [leftOver]
  | @cons e f o es b b' f' new rs he hb h1 h2 h3 ih =>
    have hok := good_fragger (hg e (by simp)) he
    intro x hx
    rw [leftOver_cons, List.mem_append] at hx
    rcases hx with hx | hx
    · cases hd : f'.done with
      | true => simp [hd] at hx
      | false =>
        simp only [hd, Bool.false_eq_true, if_false, List.mem_singleton] at hx
        subst hx
        intro f2 o2 h4
        simp only [DlElem.fragger, Option.some.injEq, Prod.mk.injEq] at h4
        obtain ⟨rfl, rfl⟩ := h4
        rw [fragger_owner he]
        exact (hc e (by simp) f o he).step h2 hd hok.busy
    · exact ih (fun e he => hg e (by simp [he])) (fun e he => hc e (by simp [he])) x hx

/-- The number of fill bits at the end of a block. -/
theorem required_end {t c n : Nat} (hn : n = FillBits.required t c) (hc : c % 8 = 4) (hfit : t + n ≤ c) (hal : ¬ (t + n) % 8 = 0) :
    t % 8 + n = 4 ∧ 1 ≤ t % 8 ∧ t + n = c := by
  obtain ⟨h1, h2, h3⟩ := required_spec t c
  rw [← hn] at h1 h2 h3
  by_cases h : t ≥ c
  · have := h1 h; omega
  · obtain ⟨h4, h5⟩ := h2 (by omega)
    by_cases h6 : (t + 7) / 8 * 8 ≤ c
    · have := h3 h6; omega
    · omega

section
variable {own : Prop} {want : Nat → Option Wanted} {t : Time} {sc : Nat} {i : Fin 4}

/-- What is true after reading what became of the work `es` in this block. -/
structure Read (want : Nat → Option Wanted) (sc : Nat) (i : Fin 4) (prev es : List DlElem) (rs : List (Fragger × List Bool))
    (x : UmacMs × List MsOut) : Prop where
  heard : Heard sc (told want (finished es rs)) x.2
  holds : ∀ e ∈ prev ++ leftOver es rs, Holds (x.1.defrag i) e
  clean : Clean (x.1.defrag i)

theorem finished_cons {e : DlElem} {es : List DlElem} {f' : Fragger} {new : List Bool} {rs : List (Fragger × List Bool)} :
    finished (e :: es) ((f', new) :: rs) = (if f'.done then e.owner.sent else []) ++ finished es rs := by
  simp [finished]

theorem not_begun {l : List DlElem} (h : l.countP DlElem.begun = 0) {d : DefragBuf} : ∀ e ∈ l, Holds d e := by
  intro e he f o hf hw
  rw [List.countP_eq_zero] at h
  have := h e he
  rw [begun_eq hf, hw] at this
  simp at this

theorem holds_frag {d : DefragBuf} {e : DlElem} {f : Fragger} {o o' : Owner} (he : e.fragger = some (f, o)) (h : Holds d e) :
    Holds d (.frag f o') := by
  intro f2 o2 h2 hw
  simp only [DlElem.fragger, Option.some.injEq, Prod.mk.injEq] at h2
  obtain ⟨rfl, rfl⟩ := h2
  exact h f o he hw

theorem Heard.append_whole {o : Owner} {f : Fragger} {a : Addr} (hc : Carry own want f o) (ha : f.resource.onAir.addr = some a)
    {rs : List Report} {outs : List MsOut} (h : Heard sc (told want rs) outs) :
    Heard sc (told want (o.sent ++ rs)) ((if f.sdu = [] then [] else [.sdu a f.sdu sc]) ++ outs) := by
  rw [told_append]
  rcases hc.what with ⟨rfl, _, h1, _⟩ | ⟨id, m, rfl, h2, h3, h4, _⟩
  · simpa [Owner.sent, told, h1] using h
  · rw [ha] at h3
    cases h3
    have : told want (Owner.msg id true).sent = [m] := by simp [Owner.sent, told, h2]
    rw [this, h4]
    exact .whole h

theorem Heard.append_short {o : Owner} {f : Fragger} {a : Addr} (hc : Carry own want f o) (ha : f.resource.onAir.addr = some a)
    {n k : Nat} (hn : f.resource.headerLen = .ok n) (hk : (n + f.sdu.length) % 8 = k) (hk1 : 1 ≤ k) {got : List Bool} (hs : Short k f.sdu got)
    {rs : List Report} {outs : List MsOut} (h : Heard sc (told want rs) outs) :
    Heard sc (told want (o.sent ++ rs)) ((if got = [] then [] else [.sdu a got sc]) ++ outs) := by
  rw [told_append]
  rcases hc.what with ⟨rfl, _, h1, _⟩ | ⟨id, m, rfl, h2, h3, h4, h5⟩
  · exfalso
    rw [h1] at hs
    cases hs <;> simp_all <;> omega
  · rw [ha] at h3
    cases h3
    have : told want (Owner.msg id true).sent = [m] := by simp [Owner.sent, told, h2]
    rw [this]
    have := h5 n hn
    rw [h4] at hs hk
    exact .short k got (by omega) hs h

theorem round_heard {es : List DlElem} {b b' : Blk} {rs : List (Fragger × List Bool)} (h : Round es b rs b') (prev : List DlElem)
    (tail : List Bool) (n : Nat) (s : UmacMs) (hcap : b.cap = 268)
    (hlen : ((rs.map Prod.snd).flatten ++ tail).length = b.remaining)
    (htail : tail.length < 16 ∨ ∃ x, tail = nullBits ++ x) (hn : b.remaining ≤ n) (ht : t.t = i.val + 1)
    (hg : ∀ e ∈ es, e.Good) (hc : ∀ e ∈ es, e.Carries own want)
    (h1 : (prev ++ es).countP DlElem.begun ≤ 1) (h2 : (prev ++ leftOver es rs).countP DlElem.begun ≤ 1)
    (hh : ∀ e ∈ prev ++ es, Holds (s.defrag i) e) (hcl : Clean (s.defrag i)) :
    Outcome (Tiny es) (Read want sc i prev es rs) (UmacMs.more t sc n s ((rs.map Prod.snd).flatten ++ tail)) := by
  induction h generalizing prev n s with
  | nil b =>
    simp only [List.map_nil, List.flatten_nil, List.nil_append] at hlen ⊢
    have key : Read want sc i prev [] [] (s, []) := ⟨.nil, by simpa [leftOver] using hh, hcl⟩
    by_cases h16 : tail.length < 16
    · rw [more_short h16]; exact key
    · obtain ⟨x, rfl⟩ := htail.resolve_left h16
      obtain ⟨n, rfl⟩ : ∃ k, n = k + 1 := ⟨n - 1, by omega⟩
      rw [more_none (ms_null s x) (by omega)]
      exact key
  | @cons e f o es b b' f' new rs he hb h3 hst h4 ih =>
    have hok := good_fragger (hg e (by simp)) he
    have hcar := hc e (by simp) f o he
    obtain ⟨a, ha⟩ := hcar.addr
    have hg' : ∀ e ∈ es, e.Good := fun e he => hg e (by simp [he])
    have hc' : ∀ e ∈ es, e.Carries own want := fun e he => hc e (by simp [he])
    have hho := hh e (by simp)
    have hown := fragger_owner he
    have hrem : b.remaining = b.cap - b.bits.length := rfl
    have hal := hb.aligned
    have hfits := hb.fits
    have hbig : Tiny es → Tiny (e :: es) := fun ⟨x, hx, r⟩ => ⟨x, by simp [hx], r⟩
    simp only [List.map_cons, List.flatten_cons, List.append_assoc] at hlen ⊢
    generalize hT : (List.map Prod.snd rs).flatten ++ tail = T at *
    have hTl : T.length = (⟨b.bits ++ new, b.cap⟩ : Blk).remaining := by
      simp only [List.length_append] at hlen
      simp only [Blk.remaining, List.length_append]; omega
    rw [leftOver_cons, hown] at h2
    have hbe := begun_eq he
    simp only [List.countP_append, List.countP_cons, hbe] at h1
    cases hst with
    | idle h5 h6 =>
      simp only [hok.busy, Bool.false_eq_true, if_false] at h2
      have hfr : ∀ o', (DlElem.frag f o').begun = f.hdrWritten := fun _ => rfl
      have := ih (prev ++ [.frag f o]) n s hcap hTl (by simpa [Blk.remaining] using hn) hg' hc'
        (by simp only [List.countP_append, List.countP_cons, List.countP_nil, hfr]; omega)
        (by simpa [List.append_assoc] using h2)
        (by
          intro x hx
          simp only [List.append_assoc, List.mem_append, List.singleton_append, List.mem_cons] at hx
          rcases hx with hx | rfl | hx
          · exact hh x (by simp [hx])
          · exact holds_frag he hho
          · exact hh x (by simp [hx])) hcl
      simp only [List.nil_append]
      refine this.mono hbig (fun x hx => ⟨?_, ?_, hx.clean⟩)
      · rw [finished_cons, hok.busy]; simpa using hx.heard
      · rw [leftOver_cons, hok.busy, hown]
        simpa [List.append_assoc] using hx.holds
    | whole hdr k r hw hr henc hd h16 hfit hal' hreq hhl =>
      simp only [if_true, List.nil_append] at h2
      generalize hL : (hdr ++ (f.sdu ++ fillPattern k)).length = L at *
      have hLl : hdr.length + f.sdu.length + k = L := by rw [← hL]; simp [length_fillPattern]; omega
      obtain ⟨n, rfl⟩ : ∃ k, n = k + 1 := ⟨n - 1, by omega⟩
      have hTl' : L + T.length = b.remaining := by
        rw [← hlen, ← hL]; simp only [List.length_append]
      have hIH : ∀ s1 : UmacMs, s1.defrag = s.defrag → Outcome (Tiny es) (Read want sc i prev es rs) (UmacMs.more t sc n s1 T) := by
        intro s1 hs1
        refine ih prev n s1 hcap hTl (by omega) hg' hc' ?_ h2 ?_ (by rw [hs1]; exact hcl)
        · simp only [List.countP_append]; omega
        · intro x hx; rw [hs1]; exact hh x (by simp only [List.mem_append, List.mem_cons] at hx ⊢; rcases hx with hx | hx <;> simp [hx])
      by_cases h8 : L % 8 = 0
      · have hrd := ms_whole (t := t) (sc := sc) s hdr k r (by rw [hL]; exact hr) henc hd h16 (by omega) (by omega) ha hcar.plain T
        rw [more_some hrd (by rw [List.length_append, hL]; omega) (by rw [List.length_append, hL]; omega)]
        refine ((hIH s rfl).mono hbig (fun _ h => h)).bind (fun x hx => ⟨?_, ?_, hx.clean⟩)
        · rw [finished_cons, hown]
          exact hx.heard.append_whole hcar ha
        · rw [leftOver_cons]; exact hx.holds
      · have hT0 : T = [] := List.length_eq_zero_iff.1 (by omega)
        obtain ⟨e1, e2, e3⟩ := required_end hreq (by omega) (by omega) (by omega : ¬ (hdr.length + f.sdu.length + k) % 8 = 0)
        have hcut := @ms_cut f a t sc s hdr k r (by rw [hL]; exact hr) henc hd h16 (by omega) (by omega) _ rfl e1 e2 ha hcar.plain
        have hIH' := hIH s rfl
        rw [hT0, more_short (by simp)] at hIH'
        rw [hT0, List.append_nil]
        rcases hcut with ⟨hp, hlt⟩ | ⟨got, rest, hsh, hrl, hp⟩
        · rw [more_panic hp (by omega)]
          exact ⟨e, by simp, f, o, he, by omega⟩
        · rw [more_some hp (by omega) (by omega), more_short hrl]
          refine ⟨?_, ?_, hIH'.clean⟩
          · rw [finished_cons, hown]
            exact hIH'.heard.append_short hcar ha hhl rfl e2 hsh
          · rw [leftOver_cons]; exact hIH'.holds
    | start hdr k r hw hr henc hd hn' hfull hhl h32 hbig' =>
      simp only [hok.busy, Bool.false_eq_true, if_false] at h2
      have hT0 : T = [] := by
        apply List.length_eq_zero_iff.1
        simp only [List.length_append, List.length_take] at hlen; omega
      subst hT0
      obtain ⟨n, rfl⟩ : ∃ k, n = k + 1 := ⟨n - 1, by omega⟩
      obtain ⟨d, e1, e2, e3, e4⟩ := ms_start (sc := sc) s hdr k r hr henc hd ha hcar.plain ht hcl
      have hfull' := round_full h4 hg' (by simp only [Blk.remaining, List.length_append, List.length_take]; omega)
      have hfr : ∀ (g : Fragger) o', (DlElem.frag g o').begun = g.hdrWritten := fun _ _ => rfl
      simp only [List.singleton_append, List.countP_append, List.countP_cons, hfr, hfull', if_true] at h2
      have hd1 : ({ s with defrag := s.defrag.upd i d } : UmacMs).defrag i = d := Slots.upd_self _ _ _
      have hIH := ih (prev ++ [.frag { f with resource := r, hdrWritten := true, pos := k } o]) n { s with defrag := s.defrag.upd i d }
        hcap hTl (by simp only [Blk.remaining, List.length_append, List.length_take]; omega) hg' hc'
        (by simp only [List.countP_append, List.countP_cons, List.countP_nil, hfr, if_true]; omega)
        (by simp only [List.countP_append, List.countP_cons, List.countP_nil, hfr, if_true, hfull']; omega)
        (by
          intro x hx
          simp only [List.append_assoc, List.mem_append, List.singleton_append, List.mem_cons] at hx
          rcases hx with hx | rfl | hx
          · exact not_begun (by omega) x hx
          · intro f2 o2 h5 _
            simp only [DlElem.fragger, Option.some.injEq, Prod.mk.injEq] at h5
            obtain ⟨rfl, rfl⟩ := h5
            refine ⟨by rw [hd1]; exact e2, ?_, by rw [hd1]; exact e4⟩
            rw [hd1, e3, ← ha]
            exact onAir_addr (by rw [hr])
          · exact not_begun (by omega) x hx)
        (by rw [hd1]; exact .inl e2)
      rw [more_short (by simp)] at hIH
      rw [List.append_nil, more_some e1 (by simp only [List.length_append, List.length_take]; omega)
        (by simp only [List.length_append, List.length_take, List.length_nil]; omega), more_short (by simp)]
      refine ⟨?_, ?_, hIH.clean⟩
      · rw [finished_cons, hok.busy]; simpa using hIH.heard
      · rw [leftOver_cons, hok.busy, hown]
        simpa [List.append_assoc, hok.busy] using hIH.holds
    | frag k j hw hn' hprog hfull hleft h16 hlate =>
      simp only [hok.busy, Bool.false_eq_true, if_false] at h2
      have hT0 : T = [] := by
        apply List.length_eq_zero_iff.1
        simp only [List.length_append, List.length_take, length_fillPattern, List.length_cons, List.length_nil] at hlen; omega
      subst hT0
      obtain ⟨n, rfl⟩ : ∃ k, n = k + 1 := ⟨n - 1, by omega⟩
      obtain ⟨q1, q2, q3⟩ := hho f o he hw
      have e1 := ms_frag (f := f) (sc := sc) s k j ht
      have hadd : (s.defrag i).add t (f.left.take k) = { s.defrag i with tLast := t, numFrags := (s.defrag i).numFrags + 1, bits := (s.defrag i).bits ++ f.left.take k } := by
        unfold DefragBuf.add
        rw [if_neg (by simp [q1]), if_neg ?_]
        have := hcar.short
        have hp := hok.pos_le
        simp only [q3, List.length_take, Fragger.left, List.length_drop, defragMaxLen] at hn' ⊢; omega
      have hbits : f.sdu.take f.pos ++ f.left.take k = f.sdu.take (f.pos + k) := by
        rw [Fragger.left, List.take_add]
      rw [hw] at h1
      simp only [if_true] at h1
      generalize hd : (s.defrag i).add t (f.left.take k) = d at *
      have hd1 : ({ s with defrag := s.defrag.upd i d } : UmacMs).defrag i = d := Slots.upd_self _ _ _
      have hfr : ∀ (g : Fragger) o', (DlElem.frag g o').begun = g.hdrWritten := fun _ _ => rfl
      have hIH := ih (prev ++ [.frag { f with pos := f.pos + k } o]) n { s with defrag := s.defrag.upd i d }
        hcap hTl (by simp only [Blk.remaining, List.length_append, List.length_take]; omega) hg' hc'
        (by simp only [List.countP_append, List.countP_cons, List.countP_nil, hfr, hw, if_true]; omega)
        (by simpa [List.append_assoc, hok.busy] using h2)
        (by
          intro x hx
          simp only [List.append_assoc, List.mem_append, List.singleton_append, List.mem_cons] at hx
          rcases hx with hx | rfl | hx
          · exact not_begun (by omega) x hx
          · intro f2 o2 h5 _
            simp only [DlElem.fragger, Option.some.injEq, Prod.mk.injEq] at h5
            obtain ⟨rfl, rfl⟩ := h5
            rw [hd1, hadd]
            exact ⟨q1, q2, by simp only [q3]; exact hbits⟩
          · exact not_begun (by omega) x hx)
        (by rw [hd1, hadd]; exact .inl q1)
      rw [more_short (by simp)] at hIH
      rw [List.append_nil, more_none e1 (by
        simp only [List.length_append, List.length_take, length_fillPattern, List.length_cons, List.length_nil]; omega)]
      refine ⟨?_, ?_, hIH.clean⟩
      · rw [finished_cons, hok.busy]; simpa using hIH.heard
      · rw [leftOver_cons, hok.busy, hown]
        simpa [List.append_assoc, hok.busy] using hIH.holds
    | fin k len hw hlen' hl hfit =>
      simp only [if_true, List.nil_append] at h2
      obtain ⟨n, rfl⟩ : ∃ k, n = k + 1 := ⟨n - 1, by omega⟩
      obtain ⟨q1, q2, q3⟩ := hho f o he hw
      rw [ha] at q2
      simp only [Option.some.injEq] at q2
      have e1 := ms_fin (f := f) (sc := sc) s k len hlen' hl ht q1 q2.symm (by rw [q3, Fragger.left, List.take_append_drop]) hcar.short T
      rw [hw] at h1
      simp only [if_true] at h1
      have hd1 : ({ s with defrag := s.defrag.upd i DefragBuf.new } : UmacMs).defrag i = DefragBuf.new := Slots.upd_self _ _ _
      generalize hN : [false, true, true, decide (k > 0), false] ++ (toBits 6 len ++ [false, false]) ++ (f.left ++ fillPattern k) = N at *
      have hNl : N.length = 8 * len := by
        rw [← hN]; simp only [List.length_append, List.length_cons, List.length_nil, length_toBits, length_fillPattern]; omega
      have hIH := ih prev n { s with defrag := s.defrag.upd i DefragBuf.new } hcap hTl
        (by simp only [Blk.remaining, List.length_append]; omega) hg' hc'
        (by simp only [List.countP_append]; omega) h2
        (by
          intro x hx
          rw [List.mem_append] at hx
          rcases hx with hx | hx
          · exact not_begun (by omega) x hx
          · exact not_begun (by omega) x hx)
        (by rw [hd1]; exact .inr rfl)
      rw [more_some e1 (by rw [List.length_append]; omega) (by rw [List.length_append]; omega)]
      refine (hIH.mono hbig (fun _ h => h)).bind (fun x hx => ⟨?_, ?_, hx.clean⟩)
      · rw [finished_cons, hown]
        have hne := hcar.more hw
        have := hx.heard.append_whole hcar ha
        rw [if_neg hne] at this
        exact this
      · rw [leftOver_cons]; exact hx.holds
end

/-! ## Queues -/

/-- A queue whose messages are wanted. -/
structure QGood (own : Prop) (want : Nat → Option Wanted) (q : List DlElem) : Prop where
  carries : ∀ e ∈ q, e.Carries own want
  stolen : ∀ b o, DlElem.stealing b o ∈ q → told want o.sent = []
  mine : ∀ e ∈ q, e.isGrantOrAck = true → own

section
variable {own : Prop} {want : Nat → Option Wanted}

theorem begun_isFrag {e : DlElem} (h : e.begun = true) : e.isFrag = true := by
  cases e <;> simp_all [DlElem.begun, DlElem.fragger, DlElem.isFrag, Fragger.new]

theorem count_frags (q : List DlElem) : q.countP DlElem.begun = (q.filter (·.isFrag)).countP DlElem.begun := by
  rw [List.countP_filter]
  apply List.countP_congr
  intro x _
  constructor
  · intro h; simp [h, begun_isFrag h]
  · intro h; simp_all

theorem count_work (q : List DlElem) : (workOf q).countP DlElem.begun = q.countP DlElem.begun := by
  rw [count_frags q, workOf, List.countP_append]
  have : (q.filter (·.isResource)).countP DlElem.begun = 0 := by
    rw [List.countP_eq_zero]
    intro x hx h
    have h1 := begun_isFrag h
    have h2 := (List.mem_filter.1 hx).2
    cases x <;> simp_all [DlElem.isFrag, DlElem.isResource]
  omega

theorem holds_frags {d : DefragBuf} {q q' : List DlElem} (hf : q'.filter (·.isFrag) = q.filter (·.isFrag)) (h : ∀ e ∈ q, Holds d e) :
    ∀ e ∈ q', Holds d e := by
  intro e he f o h1 h2
  have hb : e.begun = true := by rw [begun_eq h1]; exact h2
  have : e ∈ q.filter (·.isFrag) := by rw [← hf]; exact List.mem_filter.2 ⟨he, begun_isFrag hb⟩
  exact h e (List.mem_filter.1 this).1 f o h1 h2

theorem headerLen_joined {r : MacResource} {g : Option SlotGrant} {ra : Bool} {n : Nat}
    (h : ({ r with slotGrant := g, randomAccess := ra } : MacResource).headerLen = .ok n) :
    ∃ k, r.headerLen = .ok k ∧ k % 8 = n % 8 := by
  have hn : ({ r with slotGrant := g, randomAccess := ra } : MacResource).isNull = r.isNull := rfl
  simp only [MacResource.headerLen, hn] at h ⊢
  by_cases hx : r.isNull = true
  · rw [if_pos hx] at h ⊢; exact ⟨_, rfl, by cases h; rfl⟩
  · rw [if_neg hx] at h ⊢
    rw [Out.bind_eq_ok] at h
    obtain ⟨c, h1, h2⟩ := h
    rw [h1, Out.bind_ok]
    refine ⟨_, rfl, ?_⟩
    simp only [Out.pure_eq, Out.ok.injEq] at h2
    rw [← h2]
    cases g <;> cases r.slotGrant <;> simp <;> omega

theorem join_carries {e r : DlElem} (h : r.Carries own want) : (e.join r).Carries own want := by
  have key : ∀ (pdu : MacResource) (g : Option SlotGrant) (ra : Bool) (sdu : List Bool) (o : Owner),
      (DlElem.resource pdu sdu o).Carries own want →
      (DlElem.resource { pdu with slotGrant := g, randomAccess := ra } sdu o).Carries own want := by
    intro pdu g ra sdu o h f o' hf
    simp only [DlElem.fragger, Option.some.injEq, Prod.mk.injEq] at hf
    obtain ⟨rfl, rfl⟩ := hf
    obtain ⟨h1, h2, h3, h4⟩ := h _ _ rfl
    refine ⟨h1, h2, h3, ?_⟩
    rcases h4 with h4 | ⟨id, m, e1, e2, e3, e4, e5⟩
    · exact .inl h4
    · refine .inr ⟨id, m, e1, e2, e3, e4, ?_⟩
      intro n hn
      obtain ⟨k, k1, k2⟩ := headerLen_joined hn
      rw [← e5 k k1]; omega
  cases e <;> cases r <;> first
    | exact h
    | exact key _ _ _ _ _ h

theorem minimal_carries {e : DlElem} {pdu : MacResource} (h : e.asMinimal = .ok pdu) (ho : own) :
    (DlElem.resource pdu [] .internal).Carries own want := by
  intro f o hf
  simp only [DlElem.fragger, Option.some.injEq, Prod.mk.injEq] at hf
  obtain ⟨rfl, rfl⟩ := hf
  have key : ∀ (a : Addr) (g : Option SlotGrant) (ack : Bool), minimalResource a g ack = .ok pdu →
      Carry own want (Fragger.new pdu []) .internal := by
    intro a g ack h
    simp only [minimalResource] at h
    rw [Out.bind_eq_ok] at h
    obtain ⟨r, h1, h2⟩ := h
    simp only [MacResource.updateLen] at h1
    rw [Out.bind_eq_ok] at h1
    obtain ⟨k, _, h1⟩ := h1
    cases h1
    cases h2
    exact ⟨rfl, by simp [Fragger.new], by simp [Fragger.new], .inl ⟨rfl, ho, rfl, rfl, _, rfl⟩⟩
  cases e with
  | ack a => exact key _ _ _ h
  | grant a g => exact key _ _ _ h
  | resource _ _ _ => cases h
  | frag _ _ => cases h
  | stealing _ _ => cases h

theorem integrateOne_qgood {q q' : List DlElem} {e : DlElem} (h : integrateOne q e = .ok q') (hq : QGood own want q) (ho : own) :
    QGood own want q' ∧ q'.filter (·.isFrag) = q.filter (·.isFrag) := by
  unfold integrateOne at h
  cases hs : e.ssi? with
  | none => rw [hs] at h; cases h
  | some ssi =>
    rw [hs] at h
    simp only at h
    cases hany : q.any (·.isResourceFor ssi) with
    | true =>
      rw [if_pos hany] at h
      cases h
      obtain ⟨l, x, r, h1, h2, h3, h4⟩ := (updFirst_spec (·.isResourceFor ssi) e.join q).2 hany
      rw [h4]
      have hx : x.isResource = true := by cases x <;> simp_all [DlElem.isResourceFor, DlElem.isResource]
      have hj : (e.join x).isResource = true := by
        cases e <;> cases x <;> simp_all [DlElem.join, DlElem.isResource]
      refine ⟨⟨?_, ?_, ?_⟩, ?_⟩
      · intro y hy
        simp only [List.mem_append, List.mem_cons] at hy
        rcases hy with hy | rfl | hy
        · exact hq.carries y (by simp [h1, hy])
        · exact join_carries (hq.carries x (by simp [h1]))
        · exact hq.carries y (by simp [h1, hy])
      · intro b o hy
        simp only [List.mem_append, List.mem_cons] at hy
        rcases hy with hy | hy | hy
        · exact hq.stolen b o (by simp [h1, hy])
        · rw [← hy] at hj; simp [DlElem.isResource] at hj
        · exact hq.stolen b o (by simp [h1, hy])
      · intro _ _ _; exact ho
      · rw [h1]
        have n1 : x.isFrag = false := by cases x <;> simp_all [DlElem.isFrag, DlElem.isResource]
        have n2 : (e.join x).isFrag = false := by
          generalize e.join x = y at hj; cases y <;> simp_all [DlElem.isFrag, DlElem.isResource]
        simp [n1, n2]
    | false =>
      rw [if_neg (by simp [hany])] at h
      rw [Out.bind_eq_ok] at h
      obtain ⟨pdu, h1, h2⟩ := h
      cases h2
      refine ⟨⟨?_, ?_, fun _ _ _ => ho⟩, by simp [DlElem.isFrag]⟩
      · intro y hy
        simp only [List.mem_append, List.mem_singleton] at hy
        rcases hy with hy | rfl
        · exact hq.carries y hy
        · exact minimal_carries h1 ho
      · intro b o hy
        simp only [List.mem_append, List.mem_singleton, reduceCtorEq, or_false] at hy
        exact hq.stolen b o hy

theorem integrateAll_qgood {es q q' : List DlElem} (h : integrateAll q es = .ok q') (hq : QGood own want q) (ho : es ≠ [] → own) :
    QGood own want q' ∧ q'.filter (·.isFrag) = q.filter (·.isFrag) := by
  induction es generalizing q with
  | nil => cases h; exact ⟨hq, rfl⟩
  | cons e es ih =>
    simp only [integrateAll] at h
    rw [Out.bind_eq_ok] at h
    obtain ⟨q1, h1, h2⟩ := h
    have hown := ho (by simp)
    obtain ⟨k1, k2⟩ := integrateOne_qgood h1 hq hown
    obtain ⟨k3, k4⟩ := ih h2 k1 (fun _ => hown)
    exact ⟨k3, k4.trans k2⟩

theorem integrate_qgood {q q' : List DlElem} (h : integrate q = .ok q') (hq : QGood own want q) :
    QGood own want q' ∧ q'.filter (·.isFrag) = q.filter (·.isFrag) := by
  have hq1 : QGood own want (q.filter (!·.isGrantOrAck)) :=
    ⟨fun e he => hq.carries e (List.mem_filter.1 he).1, fun b o he => hq.stolen b o (List.mem_filter.1 he).1,
      fun e he => hq.mine e (List.mem_filter.1 he).1⟩
  obtain ⟨k1, k2⟩ := integrateAll_qgood h hq1 (fun hne => by
    obtain ⟨e, he⟩ := List.exists_mem_of_ne_nil _ hne
    obtain ⟨m1, m2⟩ := List.mem_filter.1 he
    exact hq.mine e m1 m2)
  refine ⟨k1, k2.trans ?_⟩
  rw [List.filter_filter]
  congr 1; funext x
  cases x <;> rfl

/-! ## Blocks -/

/-- Some message or the scheduler's own is too short to be read for sure. -/
def Risky (own : Prop) (want : Nat → Option Wanted) : Prop := own ∨ ∃ id m, want id = some m ∧ m.sdu.length < 4

theorem tiny_risky {es : List DlElem} (hc : ∀ e ∈ es, e.Carries own want) (h : Tiny es) : Risky own want := by
  obtain ⟨e, he, f, o, h1, h2⟩ := h
  rcases (hc e he f o h1).what with ⟨_, ho, _⟩ | ⟨id, m, _, e2, _, e4, _⟩
  · exact .inl ho
  · exact .inr ⟨id, m, e2, by rw [← e4]; exact h2⟩

/-- The state of a mobile station which has heard everything sent on a timeslot. -/
structure InStep (i : Fin 4) (m : UmacMs) (q : List DlElem) : Prop where
  holds : ∀ e ∈ q, Holds (m.defrag i) e
  clean : Clean (m.defrag i)

theorem rxSch_more {m : UmacMs} {t : Time} {sc : Nat} {bs : List Bool} (h : 16 ≤ bs.length) :
    m.rxSch t sc bs = UmacMs.more t sc (bs.length + 1) m bs := by
  simp [UmacMs.rxSch, UmacMs.more, h]

/-- A block with nothing but null PDUs. -/
theorem rxSch_null {m : UmacMs} {t : Time} {sc : Nat} (x : List Bool) : m.rxSch t sc (nullBits ++ x) = .ok (m, []) := by
  rw [rxSch_more (by simp [nullBits]), more_none (ms_null m x) (by simp [nullBits])]

/-- A block built from a queue, ended and filled up. -/
theorem rxSch_built {q : List DlElem} {rs : List (Fragger × List Bool)} {blk : Blk} {t : Time} {sc : Nat} {i : Fin 4} {m : UmacMs}
    (hr : Round (workOf q) ⟨[], 268⟩ rs blk) (hb : blk.Ok) (hcap : blk.cap = 268) (hbits : blk.bits = (rs.map Prod.snd).flatten)
    {r r' : TmvReq} (hrb : r.blk = blk) (hrc : r.chan = .schF) (hcl : r.close = .ok r') (ht : t.t = i.val + 1)
    (hg : ∀ e ∈ q, e.Good) (hq : QGood own want q) (h1 : q.countP DlElem.begun ≤ 1)
    (h2 : (leftOver (workOf q) rs).countP DlElem.begun ≤ 1) (hs : InStep i m q) :
    Outcome (Risky own want) (fun x => Heard sc (told want (finished (workOf q) rs)) x.2 ∧ InStep i x.1 (leftOver (workOf q) rs))
      (m.rxSch t sc (Verif.Phy.whole r'.blk)) := by
  have hfit : r.blk.bits.length ≤ r.blk.cap := by rw [hrb]; exact hb.fits
  obtain ⟨r2, c1, c2, c3, c4, c5, c6, c7⟩ := close_ok hfit
  rw [hcl] at c1
  cases c1
  have htail : ∃ tail, Verif.Phy.whole r'.blk = blk.bits ++ tail ∧ (tail.length < 16 ∨ ∃ x, tail = nullBits ++ x) := by
    by_cases h16 : 16 ≤ r.blk.remaining
    · refine ⟨nullBits ++ List.replicate (r'.blk.cap - r'.blk.bits.length) false, ?_, .inr ⟨_, rfl⟩⟩
      have := c6 ⟨.inr hrc, h16⟩
      unfold Verif.Phy.whole
      rw [this, hrb, List.append_assoc]
    · have := c7 (by intro h; exact h16 h.2)
      subst this
      refine ⟨List.replicate (r'.blk.cap - r'.blk.bits.length) false, by unfold Verif.Phy.whole; rw [hrb], .inl ?_⟩
      rw [List.length_replicate]
      simp only [Blk.remaining] at h16; omega
  have hwl : (Verif.Phy.whole r'.blk).length = 268 := by
    unfold Verif.Phy.whole
    rw [hrb, hcap] at c4
    rw [List.length_append, List.length_replicate]; omega
  obtain ⟨tail, e1, e2⟩ := htail
  rw [rxSch_more (by omega), hwl, e1, hbits]
  rw [e1, hbits] at hwl
  have hwm : ∀ e ∈ workOf q, e ∈ q := fun e he => (workOf_mem he).1
  have := round_heard (own := own) (want := want) (t := t) (sc := sc) (i := i) hr [] tail 269 m rfl (by rw [hwl]; rfl) e2
    (by simp [Blk.remaining]) ht (fun e he => hg e (hwm e he)) (fun e he => hq.carries e (hwm e he))
    (by rw [List.nil_append, count_work]; exact h1) (by rw [List.nil_append]; exact h2)
    (fun e he => hs.holds e (hwm e (by simpa using he))) hs.clean
  exact this.mono (tiny_risky (fun e he => hq.carries e (hwm e he)))
    (fun x hx => ⟨hx.heard, by simpa using hx.holds, hx.clean⟩)

end
end Verif.Umac
