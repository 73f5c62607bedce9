import Verif.Base.LTS
import Verif.Base.Notif
import Verif.Base.Proc
import Verif.Base.Py
import Verif.Lemmas.AsyncFor
import Verif.Lemmas.Autocomplete
import Verif.Lemmas.Behind
import Verif.Lemmas.Bind
import Verif.Lemmas.Busy
import Verif.Lemmas.Catch
import Verif.Lemmas.Caught
import Verif.Lemmas.CaughtChain
import Verif.Lemmas.Chains
import Verif.Lemmas.Clocked
import Verif.Lemmas.Cold
import Verif.Lemmas.Create
import Verif.Lemmas.Deadline
import Verif.Lemmas.Debounce
import Verif.Lemmas.DebouncePrompt
import Verif.Lemmas.Delay
import Verif.Lemmas.DelayPrompt
import Verif.Lemmas.Detach
import Verif.Lemmas.DetachSingle
import Verif.Lemmas.DetachTwo
import Verif.Lemmas.Direct
import Verif.Lemmas.Fronts
import Verif.Lemmas.Heapq
import Verif.Lemmas.Hosted
import Verif.Lemmas.HostedCaught
import Verif.Lemmas.HostedLoop
import Verif.Lemmas.HostedNested
import Verif.Lemmas.HostedParts
import Verif.Lemmas.HostedRun
import Verif.Lemmas.HostedSwitch
import Verif.Lemmas.HostedWork
import Verif.Lemmas.Hot
import Verif.Lemmas.Hub
import Verif.Lemmas.IterDispose
import Verif.Lemmas.Iterator
import Verif.Lemmas.Jobs
import Verif.Lemmas.Lists
import Verif.Lemmas.Loop
import Verif.Lemmas.Merge
import Verif.Lemmas.Nested
import Verif.Lemmas.NestedArrive
import Verif.Lemmas.Operators
import Verif.Lemmas.Piped
import Verif.Lemmas.Pipeline
import Verif.Lemmas.Proc
import Verif.Lemmas.Query
import Verif.Lemmas.Safe
import Verif.Lemmas.SearchBox
import Verif.Lemmas.Shared
import Verif.Lemmas.Single
import Verif.Lemmas.Slices
import Verif.Lemmas.Slow
import Verif.Lemmas.Stream
import Verif.Lemmas.Subject
import Verif.Lemmas.Switch
import Verif.Lemmas.TestSubject
import Verif.Lemmas.Timed
import Verif.Lemmas.VirtualTime
import Verif.Lemmas.Work
import Verif.Model.AsyncFor
import Verif.Model.AsyncSource
import Verif.Model.AutoDetach
import Verif.Model.Autocomplete
import Verif.Model.Awaitable
import Verif.Model.Behind
import Verif.Model.Bind
import Verif.Model.Busy
import Verif.Model.Catch
import Verif.Model.Caught
import Verif.Model.Clocked
import Verif.Model.Cold
import Verif.Model.ColdHead
import Verif.Model.Combine
import Verif.Model.Create
import Verif.Model.Deadline
import Verif.Model.Debounce
import Verif.Model.Delay
import Verif.Model.Detach
import Verif.Model.DetachSingle
import Verif.Model.DetachTwo
import Verif.Model.Diamond
import Verif.Model.Direct
import Verif.Model.Effects
import Verif.Model.EndToEnd
import Verif.Model.Fallbacks
import Verif.Model.Feedback
import Verif.Model.Filtering
import Verif.Model.Heapq
import Verif.Model.Hosted
import Verif.Model.HostedBox
import Verif.Model.HostedCaught
import Verif.Model.HostedLinger
import Verif.Model.HostedLoop
import Verif.Model.HostedNested
import Verif.Model.HostedRun
import Verif.Model.HostedSwitch
import Verif.Model.HostedWork
import Verif.Model.Hot
import Verif.Model.HotCatch
import Verif.Model.Hub
import Verif.Model.Interval
import Verif.Model.IterDispose
import Verif.Model.IterTasks
import Verif.Model.Iterate
import Verif.Model.Iterator
import Verif.Model.Jobs
import Verif.Model.Linger
import Verif.Model.Listener
import Verif.Model.Loop
import Verif.Model.Merge
import Verif.Model.Nested
import Verif.Model.NormalLoop
import Verif.Model.Notification
import Verif.Model.Piped
import Verif.Model.Pipeline
import Verif.Model.Query
import Verif.Model.Raising
import Verif.Model.RoundTrip
import Verif.Model.Safe
import Verif.Model.ScanRace
import Verif.Model.SearchBox
import Verif.Model.SelfCancel
import Verif.Model.SeqIter
import Verif.Model.SeqSource
import Verif.Model.Shared
import Verif.Model.SharedAwait
import Verif.Model.Single
import Verif.Model.Slow
import Verif.Model.SlowSubject
import Verif.Model.Subject
import Verif.Model.Subscribing
import Verif.Model.Switch
import Verif.Model.TestObserver
import Verif.Model.TestSubject
import Verif.Model.Timed
import Verif.Model.ToObservable
import Verif.Model.Transform
import Verif.Model.Twice
import Verif.Model.TwoSources
import Verif.Model.VirtualTime
import Verif.Model.Work
import Verif.Model.WorkScan
import Verif.Props.C01_05_Safe
import Verif.Props.C05_Raising
import Verif.Props.C06_AutoDetach
import Verif.Props.C07_Pipelines
import Verif.Props.C08_11_Subject
import Verif.Props.C101_103_Piped
import Verif.Props.C104_Subscribing
import Verif.Props.C105_Laws
import Verif.Props.C106_TwoSources
import Verif.Props.C107_108_Clocked
import Verif.Props.C109_111_Timed
import Verif.Props.C112_114_Nested
import Verif.Props.C112_114_Timers
import Verif.Props.C115_Caught
import Verif.Props.C116_Sample
import Verif.Props.C117_Hosted
import Verif.Props.C118_Deadline
import Verif.Props.C119_SearchBox
import Verif.Props.C120_Shared
import Verif.Props.C121_Pool
import Verif.Props.C122_Jobs
import Verif.Props.C123_Busy
import Verif.Props.C124_Work
import Verif.Props.C125_Loop
import Verif.Props.C126_Sample
import Verif.Props.C127_WorkScan
import Verif.Props.C128_Reduce
import Verif.Props.C129_WorkInner
import Verif.Props.C12_14_Single
import Verif.Props.C130_HostedWork
import Verif.Props.C131_HostedNested
import Verif.Props.C132_HostedSwitch
import Verif.Props.C133_Query
import Verif.Props.C134_HostedBox
import Verif.Props.C135_Autocomplete
import Verif.Props.C136_HostedRun
import Verif.Props.C137_NormalLoop
import Verif.Props.C138_HostedLoop
import Verif.Props.C139_LoopEnd
import Verif.Props.C140_Direct
import Verif.Props.C141_142_SelfCancel
import Verif.Props.C143_144_Effects
import Verif.Props.C145_Feedback
import Verif.Props.C146_Held
import Verif.Props.C147_RoundTrip
import Verif.Props.C148_Twice
import Verif.Props.C149_151_Diamond
import Verif.Props.C152_153_Hot
import Verif.Props.C154_HotSwitch
import Verif.Props.C155_HotRelease
import Verif.Props.C156_157_HotCatch
import Verif.Props.C158_160_Cold
import Verif.Props.C15_16_Run
import Verif.Props.C161_Silence
import Verif.Props.C162_DetachSingle
import Verif.Props.C163_ColdHead
import Verif.Props.C164_SlowSubject
import Verif.Props.C165_Memory
import Verif.Props.C166_DisposeTwo
import Verif.Props.C167_Bind
import Verif.Props.C168_Regroup
import Verif.Props.C169_IterDispose
import Verif.Props.C171_Latest
import Verif.Props.C172_MoveIn
import Verif.Props.C173_Linger
import Verif.Props.C174_HostedCatch
import Verif.Props.C175_HostedRetry
import Verif.Props.C176_Translate
import Verif.Props.C177_HostedLinger
import Verif.Props.C178_HostedSample
import Verif.Props.C179_Fallbacks
import Verif.Props.C17_19_Iterator
import Verif.Props.C180_Recover
import Verif.Props.C181_DelayMoves
import Verif.Props.C182_IterTasks
import Verif.Props.C183_Debounces
import Verif.Props.C184_DebounceMoves
import Verif.Props.C185_DelayDebounce
import Verif.Props.C186_HostedDebounce
import Verif.Props.C187_DelayMerge
import Verif.Props.C188_DebounceMerge
import Verif.Props.C189_DelaySwitch
import Verif.Props.C190_DebounceDistinct
import Verif.Props.C191_DebounceScan
import Verif.Props.C192_DebounceTake
import Verif.Props.C193_DebounceSkip
import Verif.Props.C20_26_Create
import Verif.Props.C23_24_Create
import Verif.Props.C25_Interval
import Verif.Props.C27_30_Map
import Verif.Props.C31_34_Scan
import Verif.Props.C35_40_Merge
import Verif.Props.C41_42_Switch
import Verif.Props.C43_44_Catch
import Verif.Props.C45_52_Filtering
import Verif.Props.C49_54_Combine
import Verif.Props.C57_59_Delay
import Verif.Props.C60_61_Debounce
import Verif.Props.C62_67_Hub
import Verif.Props.C63_VirtualTime
import Verif.Props.C64_TestObserver
import Verif.Props.C65_ToObservable
import Verif.Props.C66_Notification
import Verif.Props.C75_TestSubject
import Verif.Props.C79_SeqIter
import Verif.Props.C80_81_Iterate
import Verif.Props.C82_SharedAwait
import Verif.Props.C83_BackPressure
import Verif.Props.C84_Workers
import Verif.Props.C85_87_FlatMap
import Verif.Props.C89_Listener
import Verif.Props.C92_Detach
import Verif.Props.C93_DetachTwo
import Verif.Props.C94_95_SharedSource
import Verif.Props.C96_EndToEnd
import Verif.Props.C97_AsyncFor
import Verif.Props.C98_100_SubjectOrder
import Verif.Spec.Behind
import Verif.Spec.Bind
import Verif.Spec.Catch
import Verif.Spec.Cold
import Verif.Spec.Combine
import Verif.Spec.Deadline
import Verif.Spec.Debounce
import Verif.Spec.Delay
import Verif.Spec.Delivery
import Verif.Spec.Held
import Verif.Spec.Hot
import Verif.Spec.HotCatch
import Verif.Spec.Hub
import Verif.Spec.IterDispose
import Verif.Spec.Iterator
import Verif.Spec.Jobs
import Verif.Spec.Merge
import Verif.Spec.Operators
import Verif.Spec.Pauses
import Verif.Spec.Piped
import Verif.Spec.Pool
import Verif.Spec.Query
import Verif.Spec.Queue
import Verif.Spec.Recover
import Verif.Spec.Ripe
import Verif.Spec.SearchBox
import Verif.Spec.Shared
import Verif.Spec.Single
import Verif.Spec.Sources
import Verif.Spec.Stream
import Verif.Spec.Subject
import Verif.Spec.Switch
import Verif.Spec.TestSubject
import Verif.Spec.Timed
