import Verif.Config.Stack
/-!
# The settings of the radio: model of `crates/tetra-entities/src/phy/components/soapy_settings.rs` and of how
`soapyio.rs` hands them to the driver

`low` stands for Rust's `str::to_lowercase`. Names of drivers, arguments of streams and of the device, and the choice between asking
for the hardware time and estimating it are left out: they do not come from the configuration file. The frequencies are
in `StackConfig.radio`.
-/
namespace Verif.Config

/-- Direction of a channel of the radio. -/
inductive RfDir where
  | rx | tx
  deriving DecidableEq, Repr

/-- The prefix of the keys of gains (sec_phy.rs:61, 78). -/
def RfDir.key : RfDir → String
  | .rx => "rx_gain_"
  | .tx => "tx_gain_"

/-- `strip_prefix` (sec_phy.rs:61, 78). -/
def stripKey (p k : String) : Option String :=
  if p.toList.isPrefixOf k.toList then some (String.ofList (k.toList.drop p.toList.length)) else none

/-- A `HashMap<String, f64>`: no key twice. -/
abbrev Gains := List (String × F)

/-- `remove`. -/
def Gains.without (m : Gains) (k : String) : Gains := m.filter fun x => x.1 != k

/-- `insert`. -/
def Gains.put (m : Gains) (k : String) (f : F) : Gains := (k, f) :: m.without k

/-- `rx_gains`, `tx_gains` (sec_phy.rs:57-91). The entries are met in the order of a `HashMap`, which is arbitrary: `l` is that order,
the last entry first. -/
def gainMap (low : String → String) (p : String) : List (String × F) → Gains
  | [] => []
  | kv :: l =>
    match stripKey p kv.1 with
    | some n => (gainMap low p l).put (low n) kv.2
    | none => gainMap low p l

/-- The loop over the gains of the device (soapy_settings.rs:119-124, 130-135): the values to be set and what is left of the
configuration. -/
def fillGains (low : String → String) : List (String × F) → Gains → List (String × F) × Gains
  | [], m => ([], m)
  | (n, d) :: ds, m =>
    match m.lookup (low n) with
    | some g => let r := fillGains low ds (m.without (low n)); ((n, g) :: r.1, r.2)
    | none => let r := fillGains low ds m; ((n, d) :: r.1, r.2)

/-- `LimeSdrModel` (soapy_settings.rs:13-22). -/
inductive Lime where
  | usb | mini2 | netMicro | fx3 | ft601
  deriving DecidableEq, Repr

/-- `SupportedDevice` (soapy_settings.rs:6-11); the models of USRP have the same settings. -/
inductive Device where
  | lime (m : Lime)
  | sx
  | pluto
  | usrp
  deriving DecidableEq, Repr

/-- `detect` (soapy_settings.rs:34-58). -/
def Device.detect (driver hardware : String) : Option Device :=
  if driver = "FX3" then some (.lime (if hardware = "LimeSDR-USB" then .usb else .fx3))
  else if driver = "FT601" then
    some (.lime (if hardware = "LimeSDR-Mini_v2" then .mini2 else if hardware = "LimeNET-Micro" then .netMicro else .ft601))
  else if driver = "sx" then some .sx
  else if driver = "PlutoSDR" then some .pluto
  else if driver = "b200" ∨ driver = "uhd" then some .usrp
  else none

/-- `SdrSettings` (soapy_settings.rs:61-91). -/
structure Settings where
  fs : F
  rxCh : Nat
  txCh : Nat
  rxAnt : Option String
  txAnt : Option String
  rxGain : List (String × F)
  txGain : List (String × F)
  deriving DecidableEq, Repr

/-- The sample rate of `default` (soapy_settings.rs:164-193). -/
def defaultRate : Mode → F
  | .bs => .fin 512000 0
  | .ms => .fin 512000 0
  | .mon => .fin 16384000 0

/-- `get_defaults` (soapy_settings.rs:147-157 and 195-303). That of the SXceiver takes the sample rate of the configuration; this is
done again for all devices afterwards. -/
def Device.defaults (mode : Mode) : Device → Settings
  | .lime m =>
    ⟨defaultRate mode, 0, 0, some (if m = .usb then "LNAL" else "LNAW"), some (if m = .usb then "BAND1" else "BAND2"),
      [("LNA", .fin 18 0), ("TIA", .fin 6 0), ("PGA", .fin 10 0)], [("PAD", .fin 22 0), ("IAMP", .fin 6 0)]⟩
  | .sx =>
    ⟨.fin 600000 0, 0, 0, some "RX", some "TX", [("LNA", .fin 42 0), ("PGA", .fin 16 0)], [("DAC", .fin 9 0), ("MIXER", .fin 30 0)]⟩
  | .pluto => ⟨.fin 1000000 0, 0, 0, some "A_BALANCED", some "A", [("PGA", .fin 20 0)], [("PGA", .fin 89 0)]⟩
  | .usrp => ⟨defaultRate mode, 0, 0, some "TX/RX", some "TX/RX", [("PGA", .fin 50 0)], [("PGA", .fin 45 0)]⟩

/-- `get_settings` (soapy_settings.rs:99-144); `none` is `InvalidConfiguration`. `l` is the order in which the gains of the configuration
were met. -/
def SoapyInfo.settings (low : String → String) (mode : Mode) (d : Device) (l : List (String × F)) (c : SoapyInfo) : Option Settings :=
  let s := d.defaults mode
  let rx := fillGains low s.rxGain (gainMap low "rx_gain_" l)
  let tx := fillGains low s.txGain (gainMap low "tx_gain_" l)
  if rx.2.isEmpty then
    if tx.2.isEmpty then
      some ⟨c.fs.getD s.fs, c.rxCh.getD s.rxCh, c.txCh.getD s.txCh, c.rxAnt.or s.rxAnt, c.txAnt.or s.txAnt, rx.1, tx.1⟩
    else none
  else none

/-- What the driver is told. -/
inductive Told where
  | rate (d : RfDir) (ch : Nat) (f : F)
  | antenna (d : RfDir) (ch : Nat) (a : String)
  | gain (d : RfDir) (ch : Nat) (name : String) (f : F)
  deriving DecidableEq, Repr

/-- `SoapyIo::new` (soapyio.rs:76-152), without frequencies and streams. Base and mobile stations both send and receive. -/
def Settings.told (s : Settings) : List Told :=
  [.rate .rx s.rxCh s.fs, .rate .tx s.txCh s.fs] ++ (s.rxAnt.map (.antenna .rx s.rxCh)).toList ++
  s.rxGain.map (fun g => .gain .rx s.rxCh g.1 g.2) ++ (s.txAnt.map (.antenna .tx s.txCh)).toList ++
  s.txGain.map (fun g => .gain .tx s.txCh g.1 g.2)

end Verif.Config
