import Verif.Config.Opening
/-!
# C108 — The radio that is opened is the one the settings are for
-/
namespace Verif.Config

/-! ## Specification -/

/-- The attempt opens a device of a supported kind. -/
def Usable (w : Drivers) (n : Nat) (a : Args) (d : Device) : Prop :=
  ∃ driver hardware, w n a = some (driver, hardware) ∧ Device.detect driver hardware = some d

/-- The devices that are tried: the one of the file, or those listed. -/
def tried (given : Option Args) (listed : Option (List Args)) : List Args :=
  match given with
  | some a => [a]
  | none => listed.getD []

/-- The first of the devices tried which is usable. -/
def FirstUsable (w : Drivers) (l : List Args) (i : Nat) (a : Args) (d : Device) : Prop :=
  l[i]? = some a ∧ Usable w i a d ∧ ∀ j b, j < i → l[j]? = some b → ∀ d', ¬ Usable w j b d'

/-- The table of the supported devices: driver key, hardware key (`none`: any which no other line has), kind. -/
def supported : List (String × Option String × Device) :=
  [("FX3", some "LimeSDR-USB", .lime .usb), ("FX3", none, .lime .fx3), ("FT601", some "LimeSDR-Mini_v2", .lime .mini2),
   ("FT601", some "LimeNET-Micro", .lime .netMicro), ("FT601", none, .lime .ft601), ("sx", none, .sx), ("PlutoSDR", none, .pluto),
   ("b200", none, .usrp), ("uhd", none, .usrp)]

/-! ## Proofs -/

theorem openGiven_iff {w : Drivers} {n : Nat} {a : Args} {o : Opened} :
    openGiven w n a = some o ↔ o.attempt = n ∧ o.args = a ∧ w n a = some (o.driver, o.hardware) ∧
      Device.detect o.driver o.hardware = some o.device ∧ o.remote = (a.get "driver" == some "remote") := by
  obtain ⟨n', a', dr, hw, d, r⟩ := o
  simp only [openGiven]
  split
  · rename_i h; simp [h]
  · rename_i dr' hw' h
    split
    · rename_i d' hd
      simp only [Option.some.injEq, Opened.mk.injEq, h, Prod.mk.injEq]
      constructor
      · rintro ⟨rfl, rfl, rfl, rfl, rfl, rfl⟩; exact ⟨rfl, rfl, ⟨rfl, rfl⟩, hd, rfl⟩
      · rintro ⟨rfl, rfl, ⟨rfl, rfl⟩, h4, rfl⟩
        rw [hd] at h4
        exact ⟨rfl, rfl, rfl, rfl, Option.some.inj h4, rfl⟩
    · rename_i hd
      simp only [h, Option.some.injEq, Prod.mk.injEq, reduceCtorEq, false_iff]
      rintro ⟨_, _, ⟨rfl, rfl⟩, h4, _⟩
      rw [hd] at h4; cases h4

theorem openGiven_none {w : Drivers} {n : Nat} {a : Args} : openGiven w n a = none ↔ ∀ d, ¬ Usable w n a d := by
  constructor
  · rintro h d ⟨dr, hw, h1, h2⟩
    have : openGiven w n a = some ⟨n, a, dr, hw, d, a.get "driver" == some "remote"⟩ := openGiven_iff.2 ⟨rfl, rfl, h1, h2, rfl⟩
    rw [h] at this; cases this
  · intro h
    cases ho : openGiven w n a with
    | none => rfl
    | some o =>
      obtain ⟨_, _, h3, h4, _⟩ := openGiven_iff.1 ho
      exact absurd ⟨_, _, h3, h4⟩ (h o.device)

/-- The search finds the first usable device. -/
theorem find_iff {w : Drivers} {l : List Args} {n : Nat} {o : Opened} :
    findSupported w n l = some o ↔ ∃ i a, l[i]? = some a ∧ openGiven w (n + i) a = some o ∧
      ∀ j b, j < i → l[j]? = some b → openGiven w (n + j) b = none := by
  induction l generalizing n with
  | nil => simp [findSupported]
  | cons x l ih =>
    rw [findSupported]
    split
    · rename_i o' ho
      rw [Option.some.injEq]
      constructor
      · rintro rfl; exact ⟨0, x, rfl, ho, fun j b hj => absurd hj (Nat.not_lt_zero _)⟩
      · rintro ⟨i, a, h1, h2, h3⟩
        cases i with
        | zero => cases h1; rw [Nat.add_zero, ho] at h2; exact Option.some.inj h2
        | succ i =>
          have := h3 0 x (Nat.succ_pos _) rfl
          rw [Nat.add_zero, ho] at this; cases this
    · rename_i ho
      rw [ih]
      constructor
      · rintro ⟨i, a, h1, h2, h3⟩
        refine ⟨i + 1, a, h1, by rw [← h2]; congr 1; omega, fun j b hj hb => ?_⟩
        cases j with
        | zero => cases hb; exact ho
        | succ j =>
          have := h3 j b (by omega) hb
          rw [← this]; congr 1; omega
      · rintro ⟨i, a, h1, h2, h3⟩
        cases i with
        | zero => cases h1; rw [Nat.add_zero, ho] at h2; cases h2
        | succ i =>
          refine ⟨i, a, h1, by rw [← h2]; congr 1; omega, fun j b hj hb => ?_⟩
          have := h3 (j + 1) b (by omega) hb
          rw [← this]; congr 1; omega

/-- The device which is opened first. -/
theorem first_iff {w : Drivers} {given : Option Args} {listed : Option (List Args)} {o : Opened} :
    openFirst w given listed = some o ↔
      FirstUsable w (tried given listed) o.attempt o.args o.device ∧ w o.attempt o.args = some (o.driver, o.hardware) ∧
        Device.detect o.driver o.hardware = some o.device ∧ o.remote = (o.args.get "driver" == some "remote") := by
  have main : ∀ l, findSupported w 0 l = some o ↔ FirstUsable w l o.attempt o.args o.device ∧ w o.attempt o.args = some (o.driver, o.hardware) ∧
        Device.detect o.driver o.hardware = some o.device ∧ o.remote = (o.args.get "driver" == some "remote") := by
    intro l
    rw [find_iff]
    constructor
    · rintro ⟨i, a, h1, h2, h3⟩
      rw [Nat.zero_add] at h2
      obtain ⟨rfl, rfl, k1, k2, k3⟩ := openGiven_iff.1 h2
      refine ⟨⟨h1, ⟨_, _, k1, k2⟩, fun j b hj hb => ?_⟩, k1, k2, k3⟩
      have := h3 j b hj hb
      rw [Nat.zero_add] at this
      exact openGiven_none.1 this
    · rintro ⟨⟨h1, _, h3⟩, k1, k2, k3⟩
      refine ⟨o.attempt, o.args, h1, by rw [Nat.zero_add]; exact openGiven_iff.2 ⟨rfl, rfl, k1, k2, k3⟩, fun j b hj hb => ?_⟩
      rw [Nat.zero_add]
      exact openGiven_none.2 (h3 j b hj hb)
  cases given with
  | some a =>
    simp only [tried, openFirst]
    rw [← main [a]]
    simp only [findSupported]
    cases openGiven w 0 a <;> simp
  | none =>
    simp only [tried, openFirst]
    cases listed with
    | none =>
      rw [Option.getD_none, ← main []]
      simp [findSupported]
    | some l => exact main l

/-- The arguments a device is opened with in the end. -/
def finalArgs (d : Device) (a : Args) : Args := d.extraArgs.foldl (fun a kv => a.set kv.1 kv.2) a

theorem get_set (a : Args) (k v x : String) : (a.set k v).get x = if x = k then some v else a.get x := by
  simp only [Args.set, Args.get, List.lookup_cons]
  by_cases h : x = k
  · simp [h]
  · have hb : (x == k) = false := by simpa using h
    simp only [hb, if_neg h]
    induction a with
    | nil => rfl
    | cons y a ih =>
      by_cases hy : y.1 = k
      · have hxy : (x == y.1) = false := by rw [hy]; exact hb
        rw [List.filter_cons_of_neg (by simp [hy]), ih, List.lookup_cons, hxy]
      · rw [List.filter_cons_of_pos (by simpa using hy), List.lookup_cons, List.lookup_cons, ih]

/-! ## C108 -/

/-- **C108**: exactly when the station has a radio, and which. The first usable device is taken, with the settings for its kind. Its clock is
read unless it is a Pluto or is reached through the network. A Pluto is opened a second time, with more arguments, and must be the same
kind of device then; if this fails, no other device is tried. -/
theorem c108_exact (w : Drivers) (given : Option Args) (listed : Option (List Args)) (settings : Device → Option Settings) (r : Radio) :
    openDevice w given listed settings = some r ↔
      ∃ i a d, FirstUsable w (tried given listed) i a d ∧ settings d = some r.settings ∧
        r.hardwareTime = (d != .pluto && a.get "driver" != some "remote") ∧
        ((d ≠ .pluto ∧ r.attempt = i ∧ r.args = a) ∨
          (d = .pluto ∧ r.attempt = i + 1 ∧ r.args = finalArgs .pluto a ∧ w (i + 1) r.args = w i a)) := by
  obtain ⟨rn, ra, rs, rt⟩ := r
  have time : ∀ (d : Device) (a : Args), (if (a.get "driver" == some "remote") = true then false else d.hardwareTime) =
      (d != .pluto && a.get "driver" != some "remote") := by
    intro d a
    cases hb : (a.get "driver" == some "remote") <;> cases d <;> simp [Device.hardwareTime, bne, hb]
  simp only [openDevice]
  constructor
  · intro h
    obtain ⟨o, ho, h⟩ := Option.bind_eq_some_iff.1 h
    obtain ⟨hf, k1, k2, k3⟩ := first_iff.1 ho
    simp only [Opened.finish] at h
    obtain ⟨s, hs, h⟩ := Option.bind_eq_some_iff.1 h
    rw [k3, time] at h
    split at h
    · rename_i hx
      have hd : o.device = .pluto := by
        revert hx; cases o.device <;> simp [Device.extraArgs]
      obtain ⟨⟨dr, hw⟩, hk, h⟩ := Option.bind_eq_some_iff.1 h
      simp only at h
      split at h
      · cases h
      · rename_i hne
        simp only [not_or, Classical.not_not] at hne
        simp only [Option.some.injEq, Radio.mk.injEq] at h
        obtain ⟨rfl, rfl, rfl, rfl⟩ := h
        refine ⟨o.attempt, o.args, o.device, hf, hs, rfl, Or.inr ⟨hd, rfl, by rw [hd]; rfl, ?_⟩⟩
        rw [k1, ← hne.1, ← hne.2]; exact hk
    · rename_i hx
      have hd : o.device ≠ .pluto := by
        intro e; rw [e] at hx; exact hx (by decide)
      simp only [Option.some.injEq, Radio.mk.injEq] at h
      obtain ⟨rfl, rfl, rfl, rfl⟩ := h
      exact ⟨o.attempt, o.args, o.device, hf, hs, rfl, Or.inl ⟨hd, rfl, rfl⟩⟩
  · rintro ⟨i, a, d, hf, hs, ht, hr⟩
    obtain ⟨dr, hw, k1, k2⟩ := hf.2.1
    have ho := (first_iff (w := w) (given := given) (listed := listed)
      (o := ⟨i, a, dr, hw, d, a.get "driver" == some "remote"⟩)).2 ⟨hf, k1, k2, rfl⟩
    refine Option.bind_eq_some_iff.2 ⟨_, ho, ?_⟩
    simp only [Opened.finish]
    refine Option.bind_eq_some_iff.2 ⟨rs, hs, ?_⟩
    simp only [time, ← ht]
    rcases hr with ⟨hd, rfl, rfl⟩ | ⟨rfl, rfl, rfl, hk⟩
    · have : ¬ 0 < d.extraArgs.length := by revert hd; cases d <;> simp [Device.extraArgs]
      rw [if_neg this]
    · rw [if_pos (by decide)]
      refine Option.bind_eq_some_iff.2 ⟨(dr, hw), by rw [← k1, ← hk]; rfl, ?_⟩
      simp only
      rw [if_neg (by simp)]
      rfl

/-- **C108, the right settings**: the device in use is of the kind its settings are for. -/
theorem c108_settings (w : Drivers) (given : Option Args) (listed : Option (List Args)) (settings : Device → Option Settings) (r : Radio)
    (h : openDevice w given listed settings = some r) : ∃ d, Usable w r.attempt r.args d ∧ settings d = some r.settings := by
  obtain ⟨i, a, d, hf, hs, _, hr⟩ := (c108_exact w given listed settings r).1 h
  refine ⟨d, ?_, hs⟩
  obtain ⟨dr, hw, k1, k2⟩ := hf.2.1
  rcases hr with ⟨_, e1, e2⟩ | ⟨_, e1, _, hk⟩
  · rw [e1, e2]; exact ⟨dr, hw, k1, k2⟩
  · exact ⟨dr, hw, by rw [e1, hk, k1], k2⟩

/-- **C108, the arguments of the file** reach the driver as written, except three of a Pluto. -/
theorem c108_args_partial (w : Drivers) (a : Args) (listed : Option (List Args)) (settings : Device → Option Settings) (r : Radio)
    (h : openDevice w (some a) listed settings = some r) (k : String) (hk : k ≠ "direct" ∧ k ≠ "timestamp_every" ∧ k ≠ "loopback") :
    r.args.get k = a.get k := by
  obtain ⟨i, b, d, hf, _, _, hr⟩ := (c108_exact w (some a) listed settings r).1 h
  have hb : b = a := by
    have := hf.1
    cases i with
    | zero => simpa [tried] using this.symm
    | succ i => simp [tried] at this
  rcases hr with ⟨_, _, e⟩ | ⟨_, _, e, _⟩
  · rw [e, hb]
  · rw [e, hb]
    simp only [finalArgs, Device.extraArgs, List.foldl_cons, List.foldl_nil, get_set, if_neg hk.1, if_neg hk.2.1, if_neg hk.2.2]

/-- **C108 finding: arguments of the file are replaced.** Of a Pluto the arguments `direct`, `timestamp_every` and `loopback` of the file
have no effect: whatever they say, the values built in are used, without a word. -/
theorem c108_replaced (w : Drivers) (a : Args) (listed : Option (List Args)) (settings : Device → Option Settings) (r : Radio)
    (h : openDevice w (some a) listed settings = some r) (hd : Usable w 0 a .pluto) :
    r.args.get "direct" = some "1" ∧ r.args.get "timestamp_every" = some "1500" ∧ r.args.get "loopback" = some "0" := by
  obtain ⟨i, b, d, hf, _, _, hr⟩ := (c108_exact w (some a) listed settings r).1 h
  have hb : i = 0 ∧ b = a := by
    have := hf.1
    cases i with
    | zero => exact ⟨rfl, by simpa [tried] using this.symm⟩
    | succ i => simp [tried] at this
  obtain ⟨rfl, rfl⟩ := hb
  have hp : d = .pluto := by
    obtain ⟨x, y, h1, h2⟩ := hf.2.1
    obtain ⟨x', y', h3, h4⟩ := hd
    rw [h1] at h3; cases h3
    rw [h2] at h4; exact Option.some.inj h4
  rcases hr with ⟨hne, _⟩ | ⟨_, _, e, _⟩
  · exact absurd hp hne
  · rw [e]
    simp only [finalArgs, Device.extraArgs, List.foldl_cons, List.foldl_nil, get_set]
    refine ⟨?_, ?_, ?_⟩ <;> simp

/-- **C108, the kinds**: a device is of the kind the table says, and of none if it is not in the table. -/
theorem c108_kind (driver hardware : String) (d : Device) :
    Device.detect driver hardware = some d ↔
      (driver, some hardware, d) ∈ supported ∨
        ((driver, none, d) ∈ supported ∧ ∀ d', (driver, some hardware, d') ∉ supported) := by
  simp only [Device.detect, supported, List.mem_cons, List.not_mem_nil, Prod.mk.injEq, Option.some.injEq, reduceCtorEq, false_and, and_false,
    true_and, or_false, false_or]
  by_cases h1 : driver = "FX3"
  · subst h1
    by_cases h : hardware = "LimeSDR-USB"
    · subst h; simp [eq_comm]
    · simp [h, eq_comm]
  by_cases h2 : driver = "FT601"
  · subst h2
    by_cases h : hardware = "LimeSDR-Mini_v2"
    · subst h; simp [eq_comm]
    by_cases h' : hardware = "LimeNET-Micro"
    · subst h'; simp [eq_comm]
    · simp [h, h', eq_comm]
  by_cases h3 : driver = "sx"
  · subst h3; simp [eq_comm]
  by_cases h4 : driver = "PlutoSDR"
  · subst h4; simp [eq_comm]
  by_cases h5 : driver = "b200"
  · subst h5; simp [eq_comm]
  by_cases h6 : driver = "uhd"
  · subst h6; simp [eq_comm]
  simp [h1, h2, h3, h4, h5, h6]

/-- Three devices: one which does not open, a sound card, and a Pluto, which is opened twice. -/
example :
    let w : Drivers := fun n a => if a.get "id" = some "1" then some ("audio", "") else if a.get "id" = some "2" ∧ 2 ≤ n then
      some ("PlutoSDR", "ADALM-PLUTO") else none
    (openDevice w none (some [[("id", "0")], [("id", "1")], [("id", "2")]]) fun d => some (d.defaults .bs)).map
      (fun r => (r.attempt, r.args.get "id", r.args.get "direct", r.hardwareTime)) = some (3, some "2", some "1", false) := by
  decide +kernel

end Verif.Config
