import Verif.Backend
import Verif.Ble
import Verif.CApi
import Verif.Codegen
import Verif.Composite
import Verif.Control
import Verif.Device
import Verif.Distinct
import Verif.EmbSplit
import Verif.Example
import Verif.Firmware
import Verif.Hid
import Verif.Keymap
import Verif.Lemmas.Api
import Verif.Lemmas.BleDeliver
import Verif.Lemmas.BleKeyboard
import Verif.Lemmas.BleRounds
import Verif.Lemmas.BleRuns
import Verif.Lemmas.BleUnstuck
import Verif.Lemmas.Board
import Verif.Lemmas.BoardLayers
import Verif.Lemmas.BoardSim
import Verif.Lemmas.BoardStep
import Verif.Lemmas.Call
import Verif.Lemmas.Callback
import Verif.Lemmas.ChordCtx
import Verif.Lemmas.ChordIdx
import Verif.Lemmas.ChordRun
import Verif.Lemmas.ChordSettle
import Verif.Lemmas.ChordStep
import Verif.Lemmas.ChordTime
import Verif.Lemmas.Codegen
import Verif.Lemmas.CodegenChords
import Verif.Lemmas.CodegenOk
import Verif.Lemmas.CodegenRead
import Verif.Lemmas.CodegenSrc
import Verif.Lemmas.CodegenTables
import Verif.Lemmas.CodegenWidth
import Verif.Lemmas.Composite
import Verif.Lemmas.Control
import Verif.Lemmas.CtxInv
import Verif.Lemmas.DanceRun
import Verif.Lemmas.Depth
import Verif.Lemmas.Down
import Verif.Lemmas.Halt
import Verif.Lemmas.Hid
import Verif.Lemmas.Immediate
import Verif.Lemmas.Keyboard
import Verif.Lemmas.KeyboardRun
import Verif.Lemmas.KeyboardScan
import Verif.Lemmas.Keymap
import Verif.Lemmas.KeysOk
import Verif.Lemmas.List
import Verif.Lemmas.MacroExec
import Verif.Lemmas.MacroInv
import Verif.Lemmas.MacroRun
import Verif.Lemmas.MacroStep
import Verif.Lemmas.Nickel
import Verif.Lemmas.NickelAccum
import Verif.Lemmas.NickelBack
import Verif.Lemmas.NickelKey
import Verif.Lemmas.NickelLeaf
import Verif.Lemmas.NickelRead
import Verif.Lemmas.NickelSrc
import Verif.Lemmas.Nothing
import Verif.Lemmas.NothingRun
import Verif.Lemmas.OneShotInv
import Verif.Lemmas.OneShotPress
import Verif.Lemmas.OneShotRun
import Verif.Lemmas.OneShotSim
import Verif.Lemmas.OneShotStep
import Verif.Lemmas.Output
import Verif.Lemmas.PendRef
import Verif.Lemmas.Refs
import Verif.Lemmas.Reporter
import Verif.Lemmas.Rest
import Verif.Lemmas.Rtic
import Verif.Lemmas.RticUnstuck
import Verif.Lemmas.Safe
import Verif.Lemmas.SafeSrc
import Verif.Lemmas.SafeSys
import Verif.Lemmas.Scheduler
import Verif.Lemmas.Settled
import Verif.Lemmas.Steps
import Verif.Lemmas.Ticks
import Verif.Lemmas.TimedRun
import Verif.Lemmas.TimedSim
import Verif.Lemmas.TimedStep
import Verif.Lemmas.Timer
import Verif.Lemmas.Unstuck
import Verif.Lemmas.UsbFast
import Verif.Lemmas.VirtCtx
import Verif.Lemmas.VirtDrain
import Verif.Lemmas.VirtInv
import Verif.Lemmas.VirtPress
import Verif.Lemmas.VirtRun
import Verif.Lemmas.VirtSlots
import Verif.Lemmas.VirtStep
import Verif.Lemmas.Whole
import Verif.Matrix
import Verif.Names
import Verif.Nickel
import Verif.Output
import Verif.Props.Automation
import Verif.Props.Backend
import Verif.Props.Ble
import Verif.Props.BleCalled
import Verif.Props.BleCalls
import Verif.Props.BleCases
import Verif.Props.BleKeyboard
import Verif.Props.BleTimeout
import Verif.Props.BleUnstuck
import Verif.Props.Board
import Verif.Props.CApi
import Verif.Props.CInput
import Verif.Props.Callback
import Verif.Props.CapsWord
import Verif.Props.ChordCapacity
import Verif.Props.Chorded
import Verif.Props.Chords
import Verif.Props.Codegen
import Verif.Props.Control
import Verif.Props.Dance
import Verif.Props.Device
import Verif.Props.Distinct
import Verif.Props.Down
import Verif.Props.EmbSplit
import Verif.Props.EmbSplitUnstuck
import Verif.Props.Embassy
import Verif.Props.Events
import Verif.Props.Firmware
import Verif.Props.Foreign
import Verif.Props.Halt
import Verif.Props.Hid
import Verif.Props.Keyboard
import Verif.Props.Keymap
import Verif.Props.Layered
import Verif.Props.Macro
import Verif.Props.Matrix
import Verif.Props.Nickel
import Verif.Props.Nothing
import Verif.Props.OneShot
import Verif.Props.Order
import Verif.Props.Output
import Verif.Props.Queue
import Verif.Props.Reporter
import Verif.Props.Rest
import Verif.Props.Rtic
import Verif.Props.RticKeyboard
import Verif.Props.RticRuns
import Verif.Props.RticSplit
import Verif.Props.RticSplitUnstuck
import Verif.Props.RticUnstuck
import Verif.Props.Safe
import Verif.Props.Scheduler
import Verif.Props.Slice
import Verif.Props.Source
import Verif.Props.Split
import Verif.Props.SplitLink
import Verif.Props.Sticky
import Verif.Props.StuckForEver
import Verif.Props.TapDance
import Verif.Props.TapHold
import Verif.Props.TapHoldTime
import Verif.Props.Text
import Verif.Props.Time
import Verif.Props.Typist
import Verif.Props.Unstuck
import Verif.Props.Usb
import Verif.Props.Virt
import Verif.Props.Whole
import Verif.Props.Words
import Verif.Reporter
import Verif.Res
import Verif.Rtic
import Verif.RticSplit
import Verif.Scheduler
import Verif.Slice
import Verif.Spec.Ble
import Verif.Spec.BleKeyboard
import Verif.Spec.BleUnstuck
import Verif.Spec.Board
import Verif.Spec.ChordLayout
import Verif.Spec.Chords
import Verif.Spec.Control
import Verif.Spec.Dance
import Verif.Spec.DanceLayout
import Verif.Spec.Device
import Verif.Spec.Down
import Verif.Spec.EmbSplit
import Verif.Spec.Embassy
import Verif.Spec.Hid
import Verif.Spec.Host
import Verif.Spec.Keyboard
import Verif.Spec.Keymap
import Verif.Spec.Layout
import Verif.Spec.Macro
import Verif.Spec.Matrix
import Verif.Spec.Nickel
import Verif.Spec.Nothing
import Verif.Spec.OneShot
import Verif.Spec.OneShotLayout
import Verif.Spec.Output
import Verif.Spec.Queue
import Verif.Spec.Rtic
import Verif.Spec.RticSplit
import Verif.Spec.RticUnstuck
import Verif.Spec.Safe
import Verif.Spec.SafeTables
import Verif.Spec.Scheduler
import Verif.Spec.Source
import Verif.Spec.SourceBoard
import Verif.Spec.SourceSafe
import Verif.Spec.SplitLink
import Verif.Spec.Timed
import Verif.Spec.TimedLayout
import Verif.Spec.Unstuck
import Verif.Spec.Usb
import Verif.Spec.Virt
import Verif.Spec.VirtLayout
import Verif.Spec.Whole
import Verif.Spec.Words
import Verif.Split
import Verif.SplitLink
import Verif.StdSearch
import Verif.Sys.Automation
import Verif.Sys.CapsWord
import Verif.Sys.Chorded
import Verif.Sys.Layered
import Verif.Sys.Simple
import Verif.Sys.Sticky
import Verif.Sys.TapDance
import Verif.Sys.TapHold
import Verif.Types
import Verif.Usb
import Verif.Whole
