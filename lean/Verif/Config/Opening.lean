import Verif.Config.Radio
/-!
# Opening the radio: model of the end of crates/tetra-entities/src/phy/components/soapyio.rs

Drivers are an environment: each attempt to open a device with some arguments either fails or gives a device with its driver key and
hardware key, and may give another one each time. Keys which cannot be read are empty texts (`unwrap_or_default`), as in the code. Not
modelled: the log, and closing devices.
-/
namespace Verif.Config

/-- `soapysdr::Args`: keys and values. -/
abbrev Args := List (String × String)

/-- `Args::set`: a key has one value. -/
def Args.set (a : Args) (k v : String) : Args := (k, v) :: a.filter fun x => x.1 != k

/-- `Args::get`. -/
def Args.get (a : Args) (k : String) : Option String := a.lookup k

/-- What comes of the attempts to open a device, numbered from 0: the driver key and the hardware key. -/
abbrev Drivers := Nat → Args → Option (String × String)

/-- `OpenedDevice` (soapyio.rs:342-349), and the number of the attempt that opened it. -/
structure Opened where
  attempt : Nat
  args : Args
  driver : String
  hardware : String
  device : Device
  remote : Bool
  deriving DecidableEq, Repr

/-- `open_given_device` (soapyio.rs:351-395). -/
def openGiven (w : Drivers) (n : Nat) (args : Args) : Option Opened :=
  let remote := args.get "driver" == some "remote"
  match w n args with
  | none => none
  | some (driver, hardware) =>
    match Device.detect driver hardware with
    | some d => some ⟨n, args, driver, hardware, d, remote⟩
    | none => none

/-- `find_supported_device` (soapyio.rs:398-411), with the devices enumerated. -/
def findSupported (w : Drivers) : Nat → List Args → Option Opened
  | _, [] => none
  | n, a :: l =>
    match openGiven w n a with
    | some o => some o
    | none => findSupported w (n + 1) l

/-- `dev_args` of the settings (soapy_settings.rs:191, 295-299). -/
def Device.extraArgs : Device → Args
  | .pluto => [("direct", "1"), ("timestamp_every", "1500"), ("loopback", "0")]
  | _ => []

/-- `use_get_hardware_time` of the settings (soapy_settings.rs:182, 283). -/
def Device.hardwareTime : Device → Bool
  | .pluto => false
  | _ => true

/-- The radio in use: the attempt and the arguments that opened it, its settings, and whether its clock is read. -/
structure Radio where
  attempt : Nat
  args : Args
  settings : Settings
  hardwareTime : Bool
  deriving DecidableEq, Repr

/-- The device opened first (soapyio.rs:415-427). `given` are the arguments of the file, `listed` what `enumerate` gives (`none`: an error). -/
def openFirst (w : Drivers) (given : Option Args) (listed : Option (List Args)) : Option Opened :=
  match given with
  | some a => openGiven w 0 a
  | none => listed.bind (findSupported w 0)

/-- The rest of `open_device` (soapyio.rs:428-476). `settings` is `get_settings`. -/
def Opened.finish (w : Drivers) (settings : Device → Option Settings) (o : Opened) : Option Radio :=
  (settings o.device).bind fun s =>
    let time := if o.remote then false else o.device.hardwareTime
    if 0 < o.device.extraArgs.length then
      let args := o.device.extraArgs.foldl (fun a kv => a.set kv.1 kv.2) o.args
      (w (o.attempt + 1) args).bind fun k =>
        if k.1 ≠ o.driver ∨ k.2 ≠ o.hardware then none
        else some ⟨o.attempt + 1, args, s, time⟩
    else some ⟨o.attempt, o.args, s, time⟩

/-- `open_device` (soapyio.rs:415-476). -/
def openDevice (w : Drivers) (given : Option Args) (listed : Option (List Args)) (settings : Device → Option Settings) : Option Radio :=
  (openFirst w given listed).bind (Opened.finish w settings)

end Verif.Config
