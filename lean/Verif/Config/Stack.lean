import Verif.Core.Freqs
import Verif.Core.Ranges
import Verif.Brew.Routable
import Verif.Umac.SchedConfig
import Verif.Lmac.Scrambler
/-!
# The configuration file: model of `crates/tetra-config/src/bluestation/*.rs`, and of how `bins/bluestation-bs` and the
entities take it over

The TOML text is not modelled: the model starts from the table the `toml` crate makes of it, in which no key occurs twice.
What the derived deserializers do (serde with `#[serde(flatten)] extra`) is modelled by hand: a missing required key, a
value of another kind and an integer outside the type are errors; keys which are no field go to `extra`. An integer is
accepted where a float is expected. Enumerations are accepted as strings only (TOML would also accept a one-key table).
-/
namespace Verif.Config

/-- An `f64`: `num / 2^exp`, an infinity, or not a number. -/
inductive F where
  | fin (num : Int) (exp : Nat)
  | inf (neg : Bool)
  | nan
  deriving DecidableEq, Repr

/-- `as u32` on a float: towards zero, saturating, 0 for NaN. -/
def F.toU32 : F → Nat
  | .fin n e => if n < 0 then 0 else min (n.toNat / 2 ^ e) 4294967295
  | .inf neg => if neg then 0 else 4294967295
  | .nan => 0

/-- A TOML value; `other` stands for dates and times. -/
inductive Value where
  | int (i : Int)
  | float (f : F)
  | str (s : String)
  | bool (b : Bool)
  | other
  | list (l : List Value)
  | table (t : List (String × Value))

abbrev Table := List (String × Value)

/-! ## Reading one value -/

/-- An unsigned integer below `bound`. -/
def rdUInt (bound : Nat) : Value → Option Nat
  | .int i => if 0 ≤ i ∧ i < bound then some i.toNat else none
  | _ => none
def rdU8 := rdUInt 256
def rdU16 := rdUInt 65536
def rdU32 := rdUInt 4294967296
/-- TOML integers are `i64`, so a `u64` or `usize` never overflows. -/
def rdU64 := rdUInt 9223372036854775808
/-- `i16`. -/
def rdI16 : Value → Option Int
  | .int i => if -32768 ≤ i ∧ i ≤ 32767 then some i else none
  | _ => none
def rdBool : Value → Option Bool
  | .bool b => some b
  | _ => none
def rdStr : Value → Option String
  | .str s => some s
  | _ => none
/-- `f64`. An integer is converted; beyond 2^53 the conversion rounds, which the model leaves out. -/
def rdF64 : Value → Option F
  | .float f => some f
  | .int i => some (.fin i 0)
  | _ => none
def rdTable : Value → Option Table
  | .table t => some t
  | _ => none
def rdAll {α : Type} (rd : Value → Option α) : List Value → Option (List α)
  | [] => some []
  | v :: vs => do
    let a ← rd v
    let as ← rdAll rd vs
    some (a :: as)
def rdList {α : Type} (rd : Value → Option α) : Value → Option (List α)
  | .list l => rdAll rd l
  | _ => none
/-- `(u32, u32)`: an array of two. -/
def rdPair : Value → Option (Nat × Nat)
  | .list [a, b] => do
    let x ← rdU32 a
    let y ← rdU32 b
    some (x, y)
  | _ => none

/-- A field without a default. -/
def req {α : Type} (t : Table) (k : String) (rd : Value → Option α) : Option α := (t.lookup k).bind rd
/-- A field of type `Option<_>`. -/
def opt {α : Type} (t : Table) (k : String) (rd : Value → Option α) : Option (Option α) :=
  match t.lookup k with
  | none => some none
  | some v => (rd v).map some
/-- A field with `#[serde(default)]`. -/
def dflt {α : Type} (t : Table) (k : String) (rd : Value → Option α) (d : α) : Option α :=
  match t.lookup k with
  | none => some d
  | some v => rd v
/-- `extra`: what is not a field. -/
def unknown (known : List String) (t : Table) : Table := t.filter fun kv => !known.contains kv.1

/-! ## The sections -/

/-- `StackMode` (config.rs:46-52). -/
inductive Mode where
  | bs
  | ms
  | mon
  deriving DecidableEq, Repr
def rdMode : Value → Option Mode
  | .str "Bs" => some .bs
  | .str "Ms" => some .ms
  | .str "Mon" => some .mon
  | _ => none

/-- `PhyBackend` (sec_phy.rs:9-15). -/
inductive Backend where
  | undefined
  | none
  | soapy
  deriving DecidableEq, Repr
def rdBackend : Value → Option Backend
  | .str "Undefined" => some .undefined
  | .str "None" => some .none
  | .str "SoapySdr" => some .soapy
  | _ => Option.none

/-- `SoapySdrDto` (sec_phy_soapy.rs:51-67). -/
structure SoapyDto where
  rxFreq : F
  txFreq : F
  ppm : Option F
  device : Option String
  rxAnt : Option String
  txAnt : Option String
  fs : Option F
  rxCh : Option Nat
  txCh : Option Nat
  extra : Table

def soapyKeys : List String :=
  ["rx_freq", "tx_freq", "ppm_err", "device", "rx_antenna", "tx_antenna", "sample_rate", "rx_channel", "tx_channel"]

def SoapyDto.read (v : Value) : Option SoapyDto := do
  let t ← rdTable v
  let rx ← req t "rx_freq" rdF64
  let tx ← req t "tx_freq" rdF64
  let ppm ← opt t "ppm_err" rdF64
  let dev ← opt t "device" rdStr
  let ra ← opt t "rx_antenna" rdStr
  let ta ← opt t "tx_antenna" rdStr
  let fs ← opt t "sample_rate" rdF64
  let rc ← opt t "rx_channel" rdU64
  let tc ← opt t "tx_channel" rdU64
  some ⟨rx, tx, ppm, dev, ra, ta, fs, rc, tc, unknown soapyKeys t⟩

/-- `PhyIoDto` (sec_phy.rs:32-45). -/
structure PhyDto where
  backend : Backend
  dlTxFile : Option String
  ulRxFile : Option String
  ulInputFile : Option String
  dlInputFile : Option String
  soapy : Option SoapyDto
  extra : Table

def phyKeys : List String := ["backend", "dl_tx_file", "ul_rx_file", "ul_input_file", "dl_input_file", "soapysdr"]

def PhyDto.read (v : Value) : Option PhyDto := do
  let t ← rdTable v
  let b ← req t "backend" rdBackend
  let f1 ← opt t "dl_tx_file" rdStr
  let f2 ← opt t "ul_rx_file" rdStr
  let f3 ← opt t "ul_input_file" rdStr
  let f4 ← opt t "dl_input_file" rdStr
  let s ← opt t "soapysdr" SoapyDto.read
  some ⟨b, f1, f2, f3, f4, s, unknown phyKeys t⟩

/-- `NetInfoDto` (sec_net.rs:13-20). -/
structure NetDto where
  mcc : Nat
  mnc : Nat
  extra : Table

def netKeys : List String := ["mcc", "mnc"]

def NetDto.read (v : Value) : Option NetDto := do
  let t ← rdTable v
  let a ← req t "mcc" rdU16
  let b ← req t "mnc" rdU16
  some ⟨a, b, unknown netKeys t⟩

/-- `CfgCellInfo` (sec_cell.rs:8-59) but for `local_ssi_ranges`. -/
structure CellInfo where
  mainCarrier : Nat
  freqBand : Nat
  freqOffset : Int
  duplexSpacing : Nat
  reverse : Bool
  customDuplex : Option Nat
  locationArea : Nat
  neighborCell : Nat
  lateEntry : Bool
  subscriberClass : Nat
  registration : Bool
  deregistration : Bool
  priorityCell : Bool
  noMinimumMode : Bool
  migration : Bool
  systemWide : Bool
  voice : Bool
  circuitData : Bool
  sndcp : Bool
  aie : Bool
  advancedLink : Bool
  systemCode : Nat
  colourCode : Nat
  sharingMode : Nat
  tsReserved : Nat
  uPlaneDtx : Bool
  frame18Ext : Bool
  timezone : Option String
  deriving DecidableEq, Repr

/-- `CellInfoDto` (sec_cell.rs:61-99), with the defaults of `cell_dto_to_cfg` (sec_cell.rs:101-138) already taken. -/
structure CellDto where
  info : CellInfo
  ranges : Option (List (Nat × Nat))
  extra : Table

def cellKeys : List String :=
  ["main_carrier", "freq_band", "freq_offset", "duplex_spacing", "reverse_operation", "custom_duplex_spacing", "location_area",
   "neighbor_cell_broadcast", "late_entry_supported", "subscriber_class", "registration", "deregistration", "priority_cell",
   "no_minimum_mode", "migration", "system_wide_services", "voice_service", "circuit_mode_data_service", "sndcp_service",
   "aie_service", "advanced_link", "system_code", "colour_code", "sharing_mode", "ts_reserved_frames", "u_plane_dtx",
   "frame_18_ext", "local_ssi_ranges", "timezone"]

def CellDto.read (v : Value) : Option CellDto := do
  let t ← rdTable v
  let a1 ← req t "main_carrier" rdU16
  let a2 ← req t "freq_band" rdU8
  let a3 ← req t "freq_offset" rdI16
  let a4 ← req t "duplex_spacing" rdU8
  let a5 ← req t "reverse_operation" rdBool
  let a6 ← opt t "custom_duplex_spacing" rdU32
  let a7 ← req t "location_area" rdU16
  let b1 ← dflt t "neighbor_cell_broadcast" rdU8 0
  let b2 ← dflt t "late_entry_supported" rdBool false
  let b3 ← dflt t "subscriber_class" rdU16 65535
  let b4 ← dflt t "registration" rdBool true
  let b5 ← dflt t "deregistration" rdBool true
  let b6 ← dflt t "priority_cell" rdBool false
  let b7 ← dflt t "no_minimum_mode" rdBool false
  let b8 ← dflt t "migration" rdBool false
  let b9 ← dflt t "system_wide_services" rdBool false
  let c1 ← dflt t "voice_service" rdBool true
  let c2 ← dflt t "circuit_mode_data_service" rdBool false
  let c3 ← dflt t "sndcp_service" rdBool false
  let c4 ← dflt t "aie_service" rdBool false
  let c5 ← dflt t "advanced_link" rdBool false
  let c6 ← dflt t "system_code" rdU8 3
  let c7 ← dflt t "colour_code" rdU8 0
  let c8 ← dflt t "sharing_mode" rdU8 0
  let c9 ← dflt t "ts_reserved_frames" rdU8 0
  let d1 ← dflt t "u_plane_dtx" rdBool false
  let d2 ← dflt t "frame_18_ext" rdBool false
  let d3 ← opt t "local_ssi_ranges" (rdList rdPair)
  let d4 ← opt t "timezone" rdStr
  some ⟨⟨a1, a2, a3, a4, a5, a6, a7, b1, b2, b3, b4, b5, b6, b7, b8, b9, c1, c2, c3, c4, c5, c6, c7, c8, c9, d1, d2, d4⟩, d3,
    unknown cellKeys t⟩

/-- `CfgBrew` (sec_brew.rs:8-30); `username` is the decimal number. -/
structure BrewInfo where
  host : String
  port : Nat
  tls : Bool
  username : String
  password : String
  reconnectSecs : Nat
  jitter : Nat
  featureSds : Bool
  whitelist : Option (List Nat)
  deriving DecidableEq, Repr

/-- `CfgBrewDto` (sec_brew.rs:32-61) after `apply_brew_patch` (sec_brew.rs:75-88). -/
structure BrewDto where
  info : BrewInfo
  extra : Table

def brewKeys : List String :=
  ["host", "port", "tls", "username", "password", "reconnect_delay_secs", "jitter_initial_latency_frames", "whitelisted_ssis",
   "feature_sds_enabled"]

def BrewDto.read (v : Value) : Option BrewDto := do
  let t ← rdTable v
  let a1 ← req t "host" rdStr
  let a2 ← dflt t "port" rdU16 443
  let a3 ← req t "tls" rdBool
  let a4 ← req t "username" rdU32
  let a5 ← req t "password" rdStr
  let a6 ← dflt t "reconnect_delay_secs" rdU64 15
  let a7 ← dflt t "jitter_initial_latency_frames" rdU8 0
  let a8 ← opt t "whitelisted_ssis" (rdList rdU32)
  let a9 ← dflt t "feature_sds_enabled" rdBool true
  some ⟨⟨a1, a2, a3, toString a4, a5, a6, a7, a9, a8⟩, unknown brewKeys t⟩

/-- `CfgTelemetryDto` (sec_telemetry.rs:21-39) and `CfgControlDto` (sec_control.rs:21-39), which are alike. -/
structure LinkDto where
  host : String
  port : Nat
  useTls : Bool
  caCert : Option String
  username : Option String
  password : Option String
  extra : Table

def linkKeys : List String := ["host", "port", "use_tls", "ca_cert", "username", "password"]

def LinkDto.read (v : Value) : Option LinkDto := do
  let t ← rdTable v
  let a1 ← req t "host" rdStr
  let a2 ← req t "port" rdU16
  let a3 ← dflt t "use_tls" rdBool false
  let a4 ← opt t "ca_cert" rdStr
  let a5 ← opt t "username" rdStr
  let a6 ← opt t "password" rdStr
  some ⟨a1, a2, a3, a4, a5, a6, unknown linkKeys t⟩

/-- `CfgTelemetry` (sec_telemetry.rs:7-19), `CfgControl` (sec_control.rs:7-19). -/
structure LinkInfo where
  host : String
  port : Nat
  useTls : Bool
  caCert : Option String
  credentials : Option (String × String)
  deriving DecidableEq, Repr

/-- `apply_telemetry_patch` (sec_telemetry.rs:44-60), `apply_control_patch` (sec_control.rs:44-60). -/
def LinkDto.patch (d : LinkDto) : Option LinkInfo :=
  if d.caCert.isSome && !d.useTls then none
  else match d.username, d.password with
    | some u, some p => some ⟨d.host, d.port, d.useTls, d.caCert, some (u, p)⟩
    | none, none => some ⟨d.host, d.port, d.useTls, d.caCert, none⟩
    | _, _ => none

/-- `TomlConfigRoot` (parsing.rs:113-130). -/
structure RootDto where
  version : String
  mode : Mode
  debugLog : Option String
  phy : PhyDto
  net : NetDto
  cell : CellDto
  brew : Option BrewDto
  telemetry : Option LinkDto
  command : Option LinkDto
  extra : Table

def rootKeys : List String :=
  ["config_version", "stack_mode", "debug_log", "phy_io", "net_info", "cell_info", "brew", "telemetry", "command"]

def RootDto.read (t : Table) : Option RootDto := do
  let a1 ← req t "config_version" rdStr
  let a2 ← req t "stack_mode" rdMode
  let a3 ← opt t "debug_log" rdStr
  let a4 ← req t "phy_io" PhyDto.read
  let a5 ← req t "net_info" NetDto.read
  let a6 ← req t "cell_info" CellDto.read
  let a7 ← opt t "brew" BrewDto.read
  let a8 ← opt t "telemetry" LinkDto.read
  let a9 ← opt t "command" LinkDto.read
  some ⟨a1, a2, a3, a4, a5, a6, a7, a8, a9, unknown rootKeys t⟩

/-! ## Checks and conversion -/

/-- `CfgSoapySdr` (sec_phy_soapy.rs:7-33). The gains are kept as the keys and values of the file: the names are put in
lower case for the driver (sec_phy.rs:63, 80). -/
structure SoapyInfo where
  ulFreq : F
  dlFreq : F
  ppm : F
  device : Option String
  rxAnt : Option String
  txAnt : Option String
  gains : List (String × F)
  fs : Option F
  rxCh : Option Nat
  txCh : Option Nat
  deriving DecidableEq, Repr

/-- `CfgPhyIo` (sec_phy.rs:17-30). -/
structure PhyInfo where
  backend : Backend
  dlTxFile : Option String
  ulRxFile : Option String
  ulInputFile : Option String
  dlInputFile : Option String
  soapy : Option SoapyInfo
  deriving DecidableEq, Repr

/-- `StackConfig` (config.rs:54-72). -/
structure StackConfig where
  mode : Mode
  debugLog : Option String
  phy : PhyInfo
  mcc : Nat
  mnc : Nat
  cell : CellInfo
  ranges : List Ranges.Range
  brew : Option BrewInfo
  telemetry : Option LinkInfo
  control : Option LinkInfo
  deriving DecidableEq, Repr

/-- A key which names a gain (parsing.rs:41, sec_phy.rs:61, 78). -/
def isGain (k : String) : Bool := "rx_gain_".toList.isPrefixOf k.toList || "tx_gain_".toList.isPrefixOf k.toList

/-- The values of the gains (sec_phy.rs:57-91): anything but a number aborts. -/
def gainsOf : Table → Res (List (String × F))
  | [] => .ok []
  | (k, v) :: rest => do
    let f ← Res.ofOption (rdF64 v)
    let fs ← gainsOf rest
    .ok ((k, f) :: fs)

/-- The checks of parsing.rs:21-62. The section `[command]` is not looked at. -/
def RootDto.sane (r : RootDto) : Bool :=
  r.version == "0.6" && r.extra.isEmpty && r.phy.extra.isEmpty &&
  (match r.phy.soapy with
    | none => true
    | some s => s.extra.all fun kv => isGain kv.1) &&
  r.net.extra.isEmpty && r.cell.extra.isEmpty &&
  (match r.brew with
    | none => true
    | some b => b.extra.isEmpty) &&
  (match r.telemetry with
    | none => true
    | some b => b.extra.isEmpty)

/-- `phy_dto_to_cfg` (sec_phy.rs:47-103). -/
def PhyDto.toInfo (p : PhyDto) : Res PhyInfo :=
  match p.soapy with
  | none => .ok ⟨p.backend, p.dlTxFile, p.ulRxFile, p.ulInputFile, p.dlInputFile, none⟩
  | some s => do
    let g ← gainsOf (s.extra.filter fun kv => isGain kv.1)
    .ok ⟨p.backend, p.dlTxFile, p.ulRxFile, p.ulInputFile, p.dlInputFile,
      some ⟨s.rxFreq, s.txFreq, s.ppm.getD (.fin 0 0), s.device, s.rxAnt, s.txAnt, g, s.fs, s.rxCh, s.txCh⟩⟩

/-- The optional sections (parsing.rs:82-89). -/
def patchOpt : Option LinkDto → Option (Option LinkInfo)
  | none => some none
  | some d => d.patch.map some

/-- `from_toml_str` (parsing.rs:17-91) after the text has been read as a table: `panic` is an abort, `none` an error
returned. -/
def fromToml (t : Table) : Res (Option StackConfig) :=
  match RootDto.read t with
  | none => .ok none
  | some r =>
    if r.sane then do
      let phy ← r.phy.toInfo
      let ranges ← Ranges.fromTuples (r.cell.ranges.getD [])
      .ok (do
        let tel ← patchOpt r.telemetry
        let ctl ← patchOpt r.command
        some ⟨r.mode, r.debugLog, phy, r.net.mcc, r.net.mnc, r.cell.info, ranges, r.brew.map (·.info), tel, ctl⟩)
    else .ok none

/-- `validate` (config.rs:76-128); `tzKnown` stands for the table of time zones of the `chrono_tz` crate. -/
def StackConfig.validate (tzKnown : String → Bool) (c : StackConfig) : Res Bool :=
  let tz : Bool := match c.cell.timezone with
    | none => true
    | some z => tzKnown z
  match c.phy.backend, c.phy.soapy with
  | .soapy, none => .ok false
  | .undefined, _ => .ok false
  | .none, _ => .ok tz
  | .soapy, some s => do
    let fi ← Freqs.fromComponents c.cell.freqBand c.cell.mainCarrier c.cell.freqOffset c.cell.reverse c.cell.duplexSpacing
      c.cell.customDuplex
    match fi with
    | none => .ok false
    | some fi => do
      let (dl, ul) ← fi.getFreqs
      .ok (decide (s.dlFreq.toU32 = dl) && decide (s.ulFreq.toU32 = ul) && tz)

/-! ## The base station takes it over -/

/-- What is broadcast (umac_bs.rs:96-218): the offset must be one of the four. The network is not connected yet when the
station starts (`StackState::default`). -/
def StackConfig.cellCfg (c : StackConfig) : Res Umac.CellCfg := do
  let off ← Res.ofOption (Freqs.offsetHzToId c.cell.freqOffset)
  .ok { mcc := c.mcc, mnc := c.mnc, systemCode := c.cell.systemCode, colourCode := c.cell.colourCode,
        sharingMode := c.cell.sharingMode, tsReserved := c.cell.tsReserved, uPlaneDtx := c.cell.uPlaneDtx,
        frame18Ext := c.cell.frame18Ext, lateEntry := c.cell.lateEntry, mainCarrier := c.cell.mainCarrier,
        freqBand := c.cell.freqBand, freqOffset := off, duplexSpacing := c.cell.duplexSpacing, reverse := c.cell.reverse,
        locationArea := c.cell.locationArea, subscriberClass := c.cell.subscriberClass,
        services := { registration := c.cell.registration, deregistration := c.cell.deregistration,
                      priorityCell := c.cell.priorityCell, noMinimumMode := c.cell.noMinimumMode,
                      migration := c.cell.migration,
                      systemWideServices := if c.brew.isSome then false else c.cell.systemWide,
                      voiceService := c.cell.voice, circuitModeData := c.cell.circuitData,
                      sndcpService := c.cell.sndcp, aieService := c.cell.aie, advancedLink := c.cell.advancedLink } }

/-- The scrambling code of the cell (umac_bs.rs:76, lmac_bs.rs:75). -/
def StackConfig.code (c : StackConfig) : Nat := (Scrambler.getInit c.mcc c.mnc c.cell.colourCode).toNat

/-- Where the radio sends and receives (soapyio.rs:72-97) before the correction for the error of its oscillator, and without
the offset of the receiver's centre frequency, which is taken off again in the receiver. -/
def StackConfig.radio (c : StackConfig) (s : SoapyInfo) : Res (F × F) :=
  match c.mode with
  | .bs => .ok (s.dlFreq, s.ulFreq)
  | .ms => .ok (s.ulFreq, s.dlFreq)
  | .mon => .panic

/-- A base station which has been started. -/
structure Station where
  cell : Umac.CellCfg
  code : Nat
  tx : F
  rx : F
  deriving DecidableEq, Repr

/-- `main` of `bins/bluestation-bs` (main.rs:34-43, 124-135, 150-152, 191, 231-233): the file is loaded (an error ends the
program), `SharedConfig::from_parts` (config.rs:141-152) aborts unless it is valid, `build_bs_stack` aborts unless the radio
is a SoapySDR device, and the entities are made. Opening the device and the files, the threads and
the network are left out. The outer result is `none` when the program ends with a message. -/
def startUp (tzKnown : String → Bool) (t : Table) : Res (Option Station) := do
  let c ← fromToml t
  match c with
  | none => .ok none
  | some c => do
    let ok ← c.validate tzKnown
    Res.assert ok
    match c.phy.backend, c.phy.soapy with
    | .soapy, some s => do
      let (tx, rx) ← c.radio s
      let cell ← c.cellCfg
      .ok (some ⟨cell, c.code, tx, rx⟩)
    | _, _ => .panic

end Verif.Config
