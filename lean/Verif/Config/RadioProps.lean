import Verif.Config.Radio
import Verif.Config.StackProps
/-!
# C101 — The radio is set as the file says

For every configuration, every supported radio and every order in which the gains of the file are met, the driver is told the values of
the file, and the values of the radio's table where the file says nothing; a gain the radio does not have is refused. The exception
is a gain written twice in different case: `c101_two_spellings`.
-/
namespace Verif.Config

/-- What is needed of the conversion to lower case: the names of the gains of the supported radios. -/
def Lowers (low : String → String) : Prop :=
  ∀ p ∈ [("LNA", "lna"), ("TIA", "tia"), ("PGA", "pga"), ("PAD", "pad"), ("IAMP", "iamp"), ("DAC", "dac"), ("MIXER", "mixer")],
    low p.1 = p.2

/-- The gains of a radio in a direction, with the values they have when the file says nothing. -/
def Device.gains (d : Device) : RfDir → List (String × F)
  | .rx => (d.defaults .bs).rxGain
  | .tx => (d.defaults .bs).txGain

/-- A key of the file names a gain of the radio: `rx_gain_` or `tx_gain_` and the name in any case. -/
def Names (low : String → String) (dir : RfDir) (key name : String) : Prop := ∃ x, stripKey dir.key key = some x ∧ low x = low name

/-- The channel in use: that of the file, or 0. -/
def SoapyInfo.ch (c : SoapyInfo) : RfDir → Nat
  | .rx => c.rxCh.getD 0
  | .tx => c.txCh.getD 0

/-! ## Maps -/

theorem lookup_without (m : Gains) (k n : String) : (m.without k).lookup n = if n = k then none else m.lookup n := by
  induction m with
  | nil => simp [Gains.without]
  | cons kv m ih =>
    obtain ⟨k', f⟩ := kv
    simp only [Gains.without, List.filter_cons] at ih ⊢
    by_cases h : k' = k
    · subst h
      simp only [bne_self_eq_false, Bool.false_eq_true, if_false]
      rw [ih]
      by_cases hn : n = k'
      · simp [hn]
      · simp only [if_neg hn, List.lookup_cons, show (n == k') = false by simpa using hn]
    · simp only [show (k' != k) = true by simpa using h, if_true, List.lookup_cons]
      by_cases hn : n = k'
      · subst hn; simp [h]
      · simp only [show (n == k') = false by simpa using hn]
        exact ih

theorem lookup_put (m : Gains) (k n : String) (f : F) : (m.put k f).lookup n = if n = k then some f else m.lookup n := by
  simp only [Gains.put, List.lookup_cons]
  by_cases h : n = k
  · simp [h]
  · simp only [show (n == k) = false by simpa using h, if_neg h]
    rw [lookup_without, if_neg h]

theorem empty_iff (m : Gains) : m.isEmpty = true ↔ ∀ n, m.lookup n = none := by
  cases m with
  | nil => simp
  | cons kv m =>
    simp only [List.isEmpty_cons, Bool.false_eq_true, false_iff]
    intro h
    have := h kv.1
    simp [List.lookup_cons] at this

theorem gainMap_from {low : String → String} {p : String} {l : List (String × F)} {n : String} {f : F}
    (h : (gainMap low p l).lookup n = some f) : ∃ k x, (k, f) ∈ l ∧ stripKey p k = some x ∧ low x = n := by
  induction l with
  | nil => cases h
  | cons kv l ih =>
    obtain ⟨k, v⟩ := kv
    simp only [gainMap] at h
    split at h
    · rename_i x hx
      rw [lookup_put] at h
      split at h
      · rename_i e
        cases h
        exact ⟨k, x, List.mem_cons_self .., hx, e.symm⟩
      · obtain ⟨k', x', hm, h1, h2⟩ := ih h
        exact ⟨k', x', List.mem_cons_of_mem _ hm, h1, h2⟩
    · obtain ⟨k', x', hm, h1, h2⟩ := ih h
      exact ⟨k', x', List.mem_cons_of_mem _ hm, h1, h2⟩

theorem gainMap_has {low : String → String} {p : String} {l : List (String × F)} {k x : String} {f : F} (hm : (k, f) ∈ l)
    (hx : stripKey p k = some x) : ∃ g, (gainMap low p l).lookup (low x) = some g := by
  induction l with
  | nil => cases hm
  | cons kv l ih =>
    obtain ⟨k', v⟩ := kv
    simp only [gainMap]
    split
    · rename_i y hy
      rw [lookup_put]
      by_cases e : low x = low y
      · exact ⟨v, by rw [if_pos e]⟩
      · rw [if_neg e]
        rcases List.mem_cons.1 hm with h | h
        · cases h
          rw [hx] at hy
          cases hy
          exact absurd rfl e
        · exact ih h
    · rename_i hy
      rcases List.mem_cons.1 hm with h | h
      · cases h
        rw [hx] at hy
        cases hy
      · exact ih h

theorem fill_left (low : String → String) (ds : List (String × F)) : ∀ (m : Gains) (n : String),
    (fillGains low ds m).2.lookup n = if n ∈ ds.map (fun d => low d.1) then none else m.lookup n := by
  induction ds with
  | nil => intro m n; simp [fillGains]
  | cons d ds ih =>
    obtain ⟨a, v⟩ := d
    intro m n
    have step : (fillGains low ((a, v) :: ds) m).2.lookup n =
        if n ∈ ds.map (fun d => low d.1) then none else if n = low a then none else m.lookup n := by
      simp only [fillGains]
      cases hg : m.lookup (low a) with
      | some g => simp only [ih, lookup_without]
      | none =>
        simp only [ih]
        by_cases h1 : n = low a
        · rw [if_pos h1, h1, hg]
        · rw [if_neg h1]
    rw [step, List.map_cons]
    by_cases h2 : n ∈ ds.map (fun d => low d.1)
    · rw [if_pos h2, if_pos (List.mem_cons_of_mem _ h2)]
    · by_cases h1 : n = low a
      · rw [if_neg h2, if_pos h1, if_pos (by rw [h1]; exact List.mem_cons_self ..)]
      · rw [if_neg h2, if_neg h1, if_neg (fun h => (List.mem_cons.1 h).elim h1 h2)]

theorem fill_values (low : String → String) (ds : List (String × F)) : ∀ m : Gains, (ds.map fun d => low d.1).Nodup →
    (fillGains low ds m).1 = ds.map fun d => (d.1, (m.lookup (low d.1)).getD d.2) := by
  induction ds with
  | nil => intro m _; rfl
  | cons d ds ih =>
    obtain ⟨a, v⟩ := d
    intro m hn
    simp only [List.map_cons, List.nodup_cons] at hn
    simp only [fillGains, List.map_cons]
    split
    · rename_i g hg
      simp only [ih _ hn.2, hg, Option.getD_some, List.cons.injEq, true_and]
      apply List.map_congr_left
      intro d hd
      rw [lookup_without, if_neg]
      intro e
      exact hn.1 (e ▸ List.mem_map_of_mem (f := fun d : String × F => low d.1) hd)
    · rename_i hg
      simp only [ih _ hn.2, hg, Option.getD_none]

/-! ## The table of radios -/

theorem names_nodup {low : String → String} (hl : Lowers low) (d : Device) (dir : RfDir) : ((d.gains dir).map fun g => low g.1).Nodup := by
  have h1 := hl ("LNA", "lna") (by simp)
  have h2 := hl ("TIA", "tia") (by simp)
  have h3 := hl ("PGA", "pga") (by simp)
  have h4 := hl ("PAD", "pad") (by simp)
  have h5 := hl ("IAMP", "iamp") (by simp)
  have h6 := hl ("DAC", "dac") (by simp)
  have h7 := hl ("MIXER", "mixer") (by simp)
  simp only at h1 h2 h3 h4 h5 h6 h7
  cases d <;> cases dir <;> simp [Device.gains, Device.defaults, h1, h2, h3, h4, h5, h6, h7]

theorem gains_mode (d : Device) (mode : Mode) : (d.defaults mode).rxGain = d.gains .rx ∧ (d.defaults mode).txGain = d.gains .tx := by
  cases d <;> exact ⟨rfl, rfl⟩

theorem chans (d : Device) (mode : Mode) : (d.defaults mode).rxCh = 0 ∧ (d.defaults mode).txCh = 0 := by
  cases d <;> exact ⟨rfl, rfl⟩

/-- The gains the driver is told. -/
theorem told_gain {low : String → String} (hl : Lowers low) {mode : Mode} {d : Device} {l : List (String × F)} {c : SoapyInfo} {s : Settings}
    (h : c.settings low mode d l = some s) (dir : RfDir) (ch : Nat) (name : String) (v : F) :
    Told.gain dir ch name v ∈ s.told ↔
      ch = c.ch dir ∧ ∃ dv, (name, dv) ∈ d.gains dir ∧ v = ((gainMap low dir.key l).lookup (low name)).getD dv := by
  simp only [SoapyInfo.settings, gains_mode, chans] at h
  split at h
  · split at h
    · cases h
      simp only [Settings.told, fill_values low _ _ (names_nodup hl d _)]
      cases dir <;> simp [SoapyInfo.ch, RfDir.key] <;> constructor
      all_goals first
        | (rintro ⟨dv, h1, h2, h3⟩; exact ⟨h2.symm, dv, h1, h3.symm⟩)
        | (rintro ⟨a, b, h1, h2, rfl, h3⟩; exact ⟨h2.symm, b, h1, h3.symm⟩)
        | (rintro ⟨h1, dv, h2, h3⟩; exact ⟨dv, h2, h1.symm, h3.symm⟩)
        | (rintro ⟨h1, dv, h2, h3⟩; exact ⟨_, dv, h2, h1.symm, rfl, h3.symm⟩)
    · cases h
  · cases h

/-! ## The property -/

/-- **C101, which files are taken**: a radio takes the configuration exactly if it has every gain the file names. -/
theorem c101_taken (low : String → String) (mode : Mode) (d : Device) (c : SoapyInfo) (l : List (String × F)) (hp : l.Perm c.gains) :
    (c.settings low mode d l).isSome = true ↔
      ∀ key f, (key, f) ∈ c.gains → ∀ dir x, stripKey dir.key key = some x → ∃ g ∈ d.gains dir, low x = low g.1 := by
  have left : ∀ dir : RfDir, (fillGains low (d.gains dir) (gainMap low dir.key l)).2.isEmpty = true ↔
      ∀ key f, (key, f) ∈ c.gains → ∀ x, stripKey dir.key key = some x → ∃ g ∈ d.gains dir, low x = low g.1 := by
    intro dir
    rw [empty_iff]
    constructor
    · intro h key f hm x hx
      obtain ⟨g, hg⟩ := gainMap_has (low := low) (hp.mem_iff.2 hm) hx
      have := h (low x)
      rw [fill_left] at this
      split at this
      · rename_i hin
        obtain ⟨g', hg', e⟩ := List.mem_map.1 hin
        exact ⟨g', hg', e.symm⟩
      · rw [hg] at this; cases this
    · intro h n
      rw [fill_left]
      split
      · rfl
      · rename_i hin
        cases hn : (gainMap low dir.key l).lookup n with
        | none => rfl
        | some f =>
          obtain ⟨k, x, hm, hx, e⟩ := gainMap_from hn
          obtain ⟨g, hg, e'⟩ := h k f (hp.mem_iff.1 hm) x hx
          exact absurd (List.mem_map.2 ⟨g, hg, by rw [← e', e]⟩) hin
  have h1 := left .rx
  have h2 := left .tx
  simp only [RfDir.key] at h1 h2
  simp only [SoapyInfo.settings, gains_mode]
  constructor
  · intro h key f hm dir x hx
    split at h
    · rename_i hr
      split at h
      · rename_i ht
        cases dir
        · exact h1.1 hr key f hm x hx
        · exact h2.1 ht key f hm x hx
      · cases h
    · cases h
  · intro h
    rw [if_pos (h1.2 fun key f hm x hx => h key f hm .rx x hx), if_pos (h2.2 fun key f hm x hx => h key f hm .tx x hx)]
    rfl

/-- **C101, gains of the file**: the driver is told, for the gain a key names, the value of the key and nothing else. What is missing:
another key may name the same gain, `c101_two_spellings`. -/
theorem c101_gain_partial (low : String → String) (hl : Lowers low) (mode : Mode) (d : Device) (c : SoapyInfo) (l : List (String × F))
    (hp : l.Perm c.gains) (s : Settings) (h : c.settings low mode d l = some s) (dir : RfDir) (key name : String) (f dv : F)
    (hk : (key, f) ∈ c.gains) (hn : Names low dir key name) (hd : (name, dv) ∈ d.gains dir)
    (alone : ∀ key' f', (key', f') ∈ c.gains → Names low dir key' name → f' = f) (ch : Nat) (v : F) :
    Told.gain dir ch name v ∈ s.told ↔ ch = c.ch dir ∧ v = f := by
  obtain ⟨x, hx, e⟩ := hn
  obtain ⟨g, hg⟩ := gainMap_has (low := low) (hp.mem_iff.2 hk) hx
  obtain ⟨k', x', hm, hx', e'⟩ := gainMap_from hg
  have hgf : g = f := alone k' g (hp.mem_iff.1 hm) ⟨x', hx', by rw [e', e]⟩
  rw [told_gain hl h, ← e, hg, hgf]
  constructor
  · rintro ⟨h1, _, _, h2⟩; exact ⟨h1, h2⟩
  · rintro ⟨h1, h2⟩; exact ⟨h1, dv, hd, h2⟩

/-- **C101, gains left out**: a gain of the radio no key names has the value of the table. -/
theorem c101_default (low : String → String) (hl : Lowers low) (mode : Mode) (d : Device) (c : SoapyInfo) (l : List (String × F))
    (hp : l.Perm c.gains) (s : Settings) (h : c.settings low mode d l = some s) (dir : RfDir) (name : String) (dv : F)
    (hd : (name, dv) ∈ d.gains dir) (none : ∀ key f, (key, f) ∈ c.gains → ¬ Names low dir key name) :
    Told.gain dir (c.ch dir) name dv ∈ s.told := by
  rw [told_gain hl h]
  refine ⟨rfl, dv, hd, ?_⟩
  cases hg : (gainMap low dir.key l).lookup (low name) with
  | none => rfl
  | some g =>
    obtain ⟨k, x, hm, hx, e⟩ := gainMap_from hg
    exact absurd ⟨x, hx, e⟩ (none k g (hp.mem_iff.1 hm))

/-- **C101, the rest**: sample rate, channels and antennas are those of the file where it names them. -/
theorem c101_rest (low : String → String) (mode : Mode) (d : Device) (c : SoapyInfo) (l : List (String × F)) (s : Settings)
    (h : c.settings low mode d l = some s) :
    (∀ dir f, c.fs = some f → ∀ ch g, Told.rate dir ch g ∈ s.told ↔ ch = c.ch dir ∧ g = f) ∧
    (∀ a, c.rxAnt = some a → ∀ ch b, Told.antenna .rx ch b ∈ s.told ↔ ch = c.ch .rx ∧ b = a) ∧
    (∀ a, c.txAnt = some a → ∀ ch b, Told.antenna .tx ch b ∈ s.told ↔ ch = c.ch .tx ∧ b = a) := by
  simp only [SoapyInfo.settings, chans] at h
  split at h
  · split at h
    · cases h
      refine ⟨?_, ?_, ?_⟩
      · intro dir f hf ch g
        cases dir <;> simp [Settings.told, hf, SoapyInfo.ch]
      · intro a ha ch b
        simp [Settings.told, ha, SoapyInfo.ch, eq_comm]
      · intro a ha ch b
        simp [Settings.told, ha, SoapyInfo.ch, eq_comm]
    · cases h
  · cases h

/-- Lower case for ASCII. -/
def asciiLow (s : String) : String := String.ofList (s.toList.map Char.toLower)

/-- A configuration with the given gains. -/
def withGains (g : List (String × F)) : SoapyInfo := ⟨.fin 433025000 0, .fin 438025000 0, .fin 0 0, none, none, some "BAND1", g, none, none, some 1⟩

theorem ascii_lowers : Lowers asciiLow := by unfold Lowers; decide +kernel

/-- A Lime radio with one gain of the file and one left out. -/
example : (withGains [("rx_gain_Lna", .fin 20 0)]).settings asciiLow .bs (.lime .usb) [("rx_gain_Lna", .fin 20 0)] =
    some ⟨.fin 512000 0, 0, 1, some "LNAL", some "BAND1", [("LNA", .fin 20 0), ("TIA", .fin 6 0), ("PGA", .fin 10 0)],
      [("PAD", .fin 22 0), ("IAMP", .fin 6 0)]⟩ ∧ Names asciiLow .rx "rx_gain_Lna" "LNA" :=
  ⟨by decide +kernel, "Lna", by decide +kernel, by decide +kernel⟩

/-! ## From the file to the driver -/

theorem gainsOf_mem {t : Table} {g : List (String × F)} (h : gainsOf t = .ok g) :
    (∀ k v, (k, v) ∈ t → ∃ f, (k, f) ∈ g ∧ rdF64 v = some f) ∧ (∀ k f, (k, f) ∈ g → ∃ v, (k, v) ∈ t ∧ rdF64 v = some f) := by
  induction t generalizing g with
  | nil => cases h; simp
  | cons kv t ih =>
    obtain ⟨k', v'⟩ := kv
    simp only [gainsOf] at h
    obtain ⟨f, h1, h⟩ := Res.bind_eq_ok.1 h
    obtain ⟨g', h2, h⟩ := Res.bind_eq_ok.1 h
    cases h
    have hv : rdF64 v' = some f := by
      cases hv : rdF64 v' with
      | none => rw [hv] at h1; cases h1
      | some f' => rw [hv] at h1; cases h1; rfl
    obtain ⟨i1, i2⟩ := ih h2
    constructor
    · intro k v hm
      rcases List.mem_cons.1 hm with e | e
      · cases e; exact ⟨f, List.mem_cons_self .., hv⟩
      · obtain ⟨f', h3, h4⟩ := i1 k v e; exact ⟨f', List.mem_cons_of_mem _ h3, h4⟩
    · intro k f' hm
      rcases List.mem_cons.1 hm with e | e
      · cases e; exact ⟨v', List.mem_cons_self .., hv⟩
      · obtain ⟨v, h3, h4⟩ := i2 k f' e; exact ⟨v, List.mem_cons_of_mem _ h3, h4⟩

theorem isGain_iff (k : String) : isGain k = true ↔ ∃ dir : RfDir, (stripKey dir.key k).isSome = true := by
  simp only [isGain, Bool.or_eq_true]
  constructor
  · rintro (h | h)
    · exact ⟨.rx, by rw [stripKey, RfDir.key, if_pos h]; rfl⟩
    · exact ⟨.tx, by rw [stripKey, RfDir.key, if_pos h]; rfl⟩
  · rintro ⟨dir, h⟩
    simp only [stripKey] at h
    cases dir
    · left; split at h
      · assumption
      · cases h
    · right; split at h
      · assumption
      · cases h

theorem gain_not_plain {k : String} (hk : isGain k = true) : k ∉ soapyKeys := by
  intro hm
  simp only [soapyKeys, List.mem_cons, List.not_mem_nil, or_false] at hm
  rcases hm with rfl | rfl | rfl | rfl | rfl | rfl | rfl | rfl | rfl <;> revert hk <;> decide

/-- What an accepted file says about the radio. -/
theorem file_gains {t : Table} {c : StackConfig} (h : fromToml t = .ok (some c)) {u : Table} (hu : inFile t .soapy = some u) :
    ∃ i, c.phy.soapy = some i ∧ gainsOf ((unknown soapyKeys u).filter fun kv => isGain kv.1) = .ok i.gains ∧
      ∀ kv ∈ unknown soapyKeys u, isGain kv.1 = true := by
  obtain ⟨r, hr, hs, hp, _⟩ := fromToml_ok h
  obtain ⟨_, _, _, s4, _⟩ := RootDto.sane_iff hs
  simp only [RootDto.read, Option.bind_eq_bind, Option.bind_eq_some_iff] at hr
  obtain ⟨a1, h1, a2, h2, a3, h3, a4, h4, a5, h5, a6, h6, a7, h7, a8, h8, a9, h9, hr⟩ := hr
  cases hr
  simp only at hp s4
  obtain ⟨vp, lp, rp⟩ := req_some h4
  obtain ⟨tp, rfl, _, op, _⟩ := phy_tells rp hp
  simp only [inFile, Option.bind_eq_some_iff] at hu
  obtain ⟨tp', e1, e2⟩ := hu
  have e1 := sub_some.1 e1
  rw [lp] at e1
  cases e1
  have e2 := sub_some.1 e2
  rcases opt_some op with ⟨e, _⟩ | ⟨v, b, e, e', eb⟩
  · rw [e] at e2; cases e2
  · rw [e] at e2
    cases e2
    simp only [PhyDto.toInfo, eb] at hp
    obtain ⟨g, hg, hp⟩ := Res.bind_eq_ok.1 hp
    have hx : b.extra = unknown soapyKeys u := by
      simp only [SoapyDto.read, Option.bind_eq_bind, Option.bind_eq_some_iff] at e'
      obtain ⟨t', h0, x1, y1, x2, y2, x3, y3, x4, y4, x5, y5, x6, y6, x7, y7, x8, y8, x9, y9, e'⟩ := e'
      cases rdTable_some h0
      cases e'
      rfl
    have hp := congrArg (fun x : Res PhyInfo => match x with | .ok p => p.soapy | _ => none) hp
    exact ⟨_, hp.symm, by rw [← hx]; exact hg, by rw [← hx]; exact s4 b eb⟩

/-- **C76 and C101, keys of the radio**: in an accepted file every key of the radio's section is one of nine, or names a gain. -/
theorem c101_keys (t : Table) (c : StackConfig) (h : fromToml t = .ok (some c)) (u : Table) (hu : inFile t .soapy = some u)
    (k : String) (v : Value) (hk : (k, v) ∈ u) :
    k ∈ ["rx_freq", "tx_freq", "ppm_err", "device", "rx_antenna", "tx_antenna", "sample_rate", "rx_channel", "tx_channel"] ∨
    "rx_gain_".toList <+: k.toList ∨ "tx_gain_".toList <+: k.toList := by
  obtain ⟨i, _, _, ha⟩ := file_gains h hu
  by_cases hm : k ∈ soapyKeys
  · exact .inl hm
  · have := ha (k, v) (by simp [unknown, hk, hm])
    simp only [isGain, Bool.or_eq_true, List.isPrefixOf_iff_prefix] at this
    exact .inr this

theorem mem_unique {u : Table} (hn : (u.map (·.1)).Nodup) {k : String} {v w : Value} (h1 : (k, v) ∈ u) (h2 : (k, w) ∈ u) : v = w := by
  induction u with
  | nil => cases h1
  | cons kv u ih =>
    simp only [List.map_cons, List.nodup_cons] at hn
    rcases List.mem_cons.1 h1 with e1 | e1 <;> rcases List.mem_cons.1 h2 with e2 | e2
    · rw [← e1] at e2; cases e2; rfl
    · exact absurd (List.mem_map.2 ⟨_, e2, by rw [← e1]⟩) hn.1
    · exact absurd (List.mem_map.2 ⟨_, e1, by rw [← e2]⟩) hn.1
    · exact ih hn.2 e1 e2

/-- **C101, from the file to the driver**: a gain written in an accepted file, in one spelling only, is a gain of the radio, and the
driver is told the number written for it and no other. What is missing: two spellings, `c101_two_spellings`. -/
theorem c101_file_partial (t : Table) (c : StackConfig) (h : fromToml t = .ok (some c)) (u : Table) (hu : inFile t .soapy = some u)
    (hn : (u.map (·.1)).Nodup) (low : String → String) (hl : Lowers low) (d : Device) (i : SoapyInfo) (hi : c.phy.soapy = some i)
    (l : List (String × F)) (hp : l.Perm i.gains) (s : Settings) (hs : i.settings low c.mode d l = some s) (dir : RfDir) (k x : String)
    (v : Value) (hk : (k, v) ∈ u) (hx : stripKey dir.key k = some x)
    (alone : ∀ k' v' x', (k', v') ∈ u → stripKey dir.key k' = some x' → low x' = low x → k' = k) :
    ∃ name f, low name = low x ∧ name ∈ (d.gains dir).map (·.1) ∧ (v = .float f ∨ ∃ n : Int, v = .int n ∧ f = .fin n 0) ∧
      ∀ ch w, Told.gain dir ch name w ∈ s.told ↔ ch = i.ch dir ∧ w = f := by
  obtain ⟨i', hi', hg, _⟩ := file_gains h hu
  rw [hi] at hi'
  cases hi'
  obtain ⟨g1, g2⟩ := gainsOf_mem hg
  have hin : ∀ k v, (k, v) ∈ u → isGain k = true → (k, v) ∈ (unknown soapyKeys u).filter fun kv => isGain kv.1 := by
    intro k v hm hk
    simp [unknown, hm, hk, gain_not_plain hk]
  have hgk : isGain k = true := (isGain_iff k).2 ⟨dir, by rw [hx]; rfl⟩
  obtain ⟨f, hf, hv⟩ := g1 k v (hin k v hk hgk)
  obtain ⟨⟨name, dv⟩, hd, e⟩ := (c101_taken low c.mode d i l hp).1 (by rw [hs]; rfl) k f hf dir x hx
  refine ⟨name, f, e.symm, List.mem_map.2 ⟨_, hd, rfl⟩, rdF64_some hv, ?_⟩
  intro ch w
  refine c101_gain_partial low hl c.mode d i l hp s hs dir k name f dv hf ⟨x, hx, e⟩ hd ?_ ch w
  rintro k' f' hm ⟨x', hx', e'⟩
  obtain ⟨v', hm', hv'⟩ := g2 k' f' hm
  have hm'' : (k', v') ∈ u := by
    simp only [unknown, List.mem_filter] at hm'
    exact hm'.1.1
  have := alone k' v' x' hm'' hx' (by rw [e', e])
  subst this
  rw [mem_unique hn hk hm'', hv'] at hv
  cases hv
  rfl

/-- The example file meets the hypotheses, with a Lime radio. -/
example : ∃ c u i s, fromToml (exampleFile "command" exampleLink) = .ok (some c) ∧
    inFile (exampleFile "command" exampleLink) .soapy = some u ∧ (u.map (·.1)).Nodup ∧ c.phy.soapy = some i ∧
    i.settings asciiLow c.mode (.lime .mini2) i.gains = some s ∧ stripKey RfDir.rx.key "rx_gain_LNA" = some "LNA" ∧
    ("rx_gain_LNA", Value.float (.fin 81 1)) ∈ u ∧ Told.gain .rx 0 "LNA" (.fin 81 1) ∈ s.told :=
  ⟨exampleConfig, _, _, ⟨.fin 512000 0, 0, 0, some "LNAW", some "BAND2", [("LNA", .fin 81 1), ("TIA", .fin 6 0), ("PGA", .fin 10 0)],
      [("PAD", .fin 22 0), ("IAMP", .fin 6 0)]⟩, by decide +kernel, rfl, by decide +kernel, rfl, by decide +kernel, by decide +kernel,
    by simp, by decide +kernel⟩

/-- **Finding**: a gain written twice in different case is not refused. One of the values is dropped without a word, and which
one depends on the order of a hash map, which differs from start to start. -/
theorem c101_two_spellings :
    ∃ c : SoapyInfo, ∃ l l', l.Perm c.gains ∧ l'.Perm c.gains ∧
      (c.settings asciiLow .bs .usrp l).map (·.rxGain) = some [("PGA", .fin 20 0)] ∧
      (c.settings asciiLow .bs .usrp l').map (·.rxGain) = some [("PGA", .fin 60 0)] :=
  ⟨withGains [("rx_gain_PGA", .fin 20 0), ("rx_gain_pga", .fin 60 0)], [("rx_gain_PGA", .fin 20 0), ("rx_gain_pga", .fin 60 0)],
    [("rx_gain_pga", .fin 60 0), ("rx_gain_PGA", .fin 20 0)], .refl _, .swap .., by decide +kernel, by decide +kernel⟩

end Verif.Config
