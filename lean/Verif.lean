import Verif.C
import Verif.Cbuf.Props
import Verif.Cbuf.ConcProps
import Verif.Cbuf.ConcGets
import Verif.Queue.Props
import Verif.Queue.Exact
import Verif.Queue.Any
import Verif.Queue.Conc
import Verif.Queue.Query
import Verif.Stack.Props
import Verif.Stack.Peek
import Verif.Stack.Isr
import Verif.Listx.Props
import Verif.Listx.More
import Verif.Crc.Props
import Verif.Crc.Radix
import Verif.Crc.Check
import Verif.Crc.Few
import Verif.Serial.Props
import Verif.Serial.Exact
import Verif.Serial.Widths
import Verif.Serial.Macros
import Verif.Debounce.Props
import Verif.Pulse.Props
import Verif.Time.CheckProps
import Verif.Time.StopwatchProps
import Verif.Time.TimerProps
import Verif.Time.TimerExact
import Verif.Keypad.Props
import Verif.Keypad.Repeat
import Verif.Keypad.Many
import Verif.Keypad.Isr
import Verif.Keypad.IsrReset
import Verif.Param.Props
import Verif.Param.Steps
import Verif.Param.Config
import Verif.Wear.Props
import Verif.Wear.Exact
import Verif.Wear.Faults
import Verif.EventLog.Props
import Verif.EventLog.Exact
import Verif.Watcher.Props
import Verif.Watcher.Packed
import Verif.Watcher.Static
import Verif.Watcher.Isr
import Verif.Watcher.Exact
import Verif.Watcher.Copy
import Verif.Watcher.Nested
import Verif.Watcher.Array
import Verif.Maybe.Props
import Verif.StructUpdate.Props
import Verif.StructUpdate.Sum
import Verif.StructUpdate.Exact
import Verif.StateMachine.Props
import Verif.StateMachine.Nested
import Verif.Pages.Props
import Verif.Pages.ReentProps
import Verif.Pages.Views
import Verif.Pid.Props
import Verif.Pid.General
import Verif.Pid.IntProps
import Verif.Scheduler.Props
import Verif.Scheduler.MoreProps
import Verif.Cbuf.TsoModel
import Verif.Cbuf.TsoProps
import Verif.Cbuf.TsoBulk
import Verif.Cbuf.WaitFree
import Verif.Float.Round
import Verif.Pid.FloatModel
import Verif.Pid.FloatProps
import Verif.Pid.Narrow
import Verif.Pid.Threshold
import Verif.Watcher.Callbacks
import Verif.Float.Ieee
import Verif.Param.FloatModel
import Verif.Param.FloatProps
import Verif.Param.More
import Verif.Param.Clone
import Verif.Param.Format
import Verif.Param.FormatProps
import Verif.Param.Int16
import Verif.Param.Exact
import Verif.Param.Chain
import Verif.Scheduler.Init
import Verif.Scheduler.Exact
import Verif.Scheduler.Hold
import Verif.Scheduler.History
import Verif.Debounce.Exact
import Verif.Pulse.Exact
import Verif.Cbuf.WidthModel
import Verif.Cbuf.WidthProps
import Verif.Cbuf.Exact
import Verif.Cbuf.Bytes
import Verif.Wear.Torn
import Verif.Wear.Isr
import Verif.Crc.Few16
import Verif.Tests.Collections
import Verif.Tests.Inputs
import Verif.Tests.Data
import Verif.Tests.Control
import Verif.Time.TimerNested
import Verif.Time.StopwatchIsr
import Verif.Time.StopwatchMid
import Verif.Time.StopwatchBoth
import Verif.Time.TimerIsr
import Verif.Time.Setngo
import Verif.Pulse.Isr
import Verif.Debounce.Isr
import Verif.Debounce.IsrFilter
import Verif.Debounce.IsrSet
import Verif.Cbuf.Race
import Verif.Float.Bound
import Verif.Pid.IeeeModel
import Verif.Pid.IeeeProps
import Verif.Pid.IeeeInf
import Verif.Pid.IeeeExact
import Verif.Combined.Keys
import Verif.Combined.Telegram
import Verif.Combined.Program
import Verif.Combined.Autosave
import Verif.Combined.AutosaveAny
import Verif.Combined.ProgramAny
import Verif.Combined.Late
import Verif.Combined.Journal
import Verif.Combined.JournalNew
import Verif.Combined.LateAny
import Verif.Debounce.Index
import Verif.Cbuf.IsrBulk
import Verif.Cbuf.IsrGets
import Verif.Cbuf.IsrPeek
import Verif.Watcher.Alloc
import Verif.Keypad.IsrSelf
import Verif.Keypad.IsrSelfLoop
import Verif.Keypad.IsrSelfUp
import Verif.Keypad.IsrSelfUpLoop
import Verif.Combined.Bounce
import Verif.Combined.PulseBounce
import Verif.Combined.Setting
import Verif.Listx.Stale
import Verif.Listx.Isr
import Verif.Listx.Iterate
import Verif.Listx.Again
import Verif.EventLog.Isr
import Verif.Pid.Steady
import Verif.Pid.Isr
import Verif.Param.FormatString
import Verif.Param.Isr
import Verif.Param.Torn
import Verif.Scheduler.Isr
import Verif.Scheduler.IsrProps
import Verif.Scheduler.IsrSet
import Verif.Pages.App
import Verif.Combined.Events
import Verif.Cbuf.Isr
import Verif.Cbuf.Reset
import Verif.Cbuf.Query
import Verif.Queue.Isr
import Verif.Combined.Control
import Verif.StateMachine.Isr
import Verif.Pages.Isr
import Verif.Pid.Load
import Verif.Param.StepExact
import Verif.Param.RangeExact
import Verif.Time.TimerPaused
import Verif.Watcher.Cleared
import Verif.Wear.Restart
import Verif.Wear.Even
import Verif.Wear.Refused
