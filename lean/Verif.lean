import Verif.Lin
import Verif.Calls
import Verif.Heap
import Verif.HeapInv
import Verif.HeapObs
import Verif.HeapLen
import Verif.Mach
import Verif.CallInv
import Verif.Instant
import Verif.Threads
import Verif.Alone
import Verif.LockFree
import Verif.Stack.Spec
import Verif.Stack.Model
import Verif.Stack.Inv
import Verif.Stack.Sim
import Verif.Stack.Reach
import Verif.Stack.Observe
import Verif.Stack.Props
import Verif.Stack.Safety
import Verif.Stack.Pool
import Verif.Stack.Unsync
import Verif.Stack.Reserve
import Verif.Stack.Progress
import Verif.Stack.Solo
import Verif.Stack.Aba
import Verif.Release
import Verif.Stack.Destroy
import Verif.Queue.Destroy
import Verif.Queue.Spec
import Verif.Queue.Model
import Verif.Queue.Inv
import Verif.Queue.Sim
import Verif.Queue.Observe
import Verif.Queue.Reach
import Verif.Queue.Props
import Verif.Queue.Safety
import Verif.Queue.Pool
import Verif.Queue.Reserve
import Verif.Queue.Unsync
import Verif.Queue.Aba
import Verif.NotLin
import Verif.Queue.Empty
import Verif.Queue.Progress
import Verif.Queue.Solo
import Verif.Spsc.Index
import Verif.Spsc.Spec
import Verif.Spsc.Model
import Verif.Spsc.Inv
import Verif.Spsc.Step
import Verif.Spsc.Reach
import Verif.Spsc.Contract
import Verif.Spsc.Props
import Verif.Spsc.Progress
import Verif.Spsc.Sim
import Verif.Spsc.Neg
import Verif.Spsc.Examples
import Verif.Tagged
import Verif.Words
import Verif.Storage
import Verif.Policy
import Verif.After
import Verif.Stack.Examples
import Verif.Queue.Examples
import Verif.Weak
import Verif.WeakLin
import Verif.Queue.WeakLin
import Verif.Queue.Weak
import Verif.Queue.WeakMem
import Verif.Queue.WeakInv
import Verif.Queue.WeakStep
import Verif.Queue.WeakRead
import Verif.Queue.WeakWrite
import Verif.Queue.WeakRmw
import Verif.Queue.WeakSim
import Verif.Queue.WeakProps
import Verif.Queue.WeakMore
import Verif.Queue.WeakExamples
import Verif.Queue.Lifetime
import Verif.Stack.Weak
import Verif.Stack.WeakInv
import Verif.Stack.WeakSim
import Verif.Stack.WeakProps
import Verif.Stack.WeakMore
import Verif.Stack.WeakExamples
import Verif.Client
import Verif.ClientInstant
import Verif.ClientCount
import Verif.ClientRun
import Verif.Consume
import Verif.Queue.Consume
import Verif.Queue.ConsumeExamples
import Verif.Stack.Consume
import Verif.Stack.ConsumeExamples
import Verif.WordMem
import Verif.WordReps
import Verif.Stack.WordModel
import Verif.Stack.WordSim
import Verif.Stack.WordProps
import Verif.Stack.WordExamples
import Verif.Text
import Verif.TextRun
import Verif.TextPool
import Verif.Stack.Text
import Verif.Stack.TextSim
import Verif.Stack.TextProps
import Verif.Stack.TextExamples
import Verif.Queue.WordModel
import Verif.Queue.WordSim
import Verif.Queue.WordProps
import Verif.Queue.WordExamples
import Verif.Queue.Text
import Verif.Queue.TextSim
import Verif.Queue.TextProps
import Verif.Queue.TextExamples
import Verif.Queue.TextOutput
import Verif.Spsc.Text
import Verif.Spsc.TextSim
import Verif.Spsc.TextProps
import Verif.Spsc.TextExamples
import Verif.Starve
import Verif.Stack.Starve
import Verif.Queue.Starve
import Verif.Stack.Footprint
import Verif.Queue.Footprint
import Verif.Forever
import Verif.Stack.Forever
import Verif.Queue.Forever
import Verif.TextUnsync
import Verif.Stack.TextUnsync
import Verif.Stack.TextUnsyncProps
import Verif.Stack.TextUnsyncExamples
import Verif.Queue.TextUnsync
import Verif.Queue.TextUnsyncProps
import Verif.Queue.TextUnsyncExamples
import Verif.TextTotal
import Verif.TextLife
import Verif.Stack.Reported
import Verif.Queue.Reported
import Verif.Stack.TextLife
import Verif.Queue.TextLife
import Verif.TextLifeExamples
import Verif.TextFollow
import Verif.Spsc.Shift
import Verif.Spsc.TextDrain
import Verif.Spsc.TextLife
import Verif.Spsc.TextLifeExamples
import Verif.Example
import Verif.ExampleInv
import Verif.ExampleEnd
import Verif.ExampleRun
import Verif.Stack.Example
import Verif.Queue.Example
import Verif.Spsc.Example
import Verif.ExampleExamples
import Verif.ExampleForever
import Verif.Spsc.ExampleEnds
import Verif.Spsc.ExampleEndsExamples
import Verif.Stack.WeakText
import Verif.Stack.WeakTextSim
import Verif.Stack.WeakTextProps
import Verif.Stack.WeakTextExamples
import Verif.Queue.WeakText
import Verif.Queue.WeakTextSim
import Verif.Queue.WeakTextProps
import Verif.Queue.WeakTextExamples
import Verif.ExampleWeak
import Verif.Stack.ExampleWeak
import Verif.Queue.ExampleWeak
import Verif.ExampleWeakExamples
import Verif.User
import Verif.UserRun
import Verif.Stress
import Verif.StressInv
import Verif.StressCalls
import Verif.StressEnd
import Verif.StressWeak
import Verif.Stack.Stress
import Verif.Queue.Stress
import Verif.StressExamples
import Verif.UserSince
import Verif.Spsc.StressProg
import Verif.Spsc.Stress
import Verif.Spsc.StressExamples
import Verif.Freelist.Spec
import Verif.Freelist.Text
import Verif.Freelist.Inv
import Verif.Freelist.Props
import Verif.Freelist.Examples
import Verif.Freelist.Progress
import Verif.Freelist.ProgressExamples
import Verif.Both
import Verif.Freelist.Tester
import Verif.Freelist.TesterInv
import Verif.Freelist.TesterEnd
import Verif.Freelist.TesterProps
import Verif.Freelist.TesterExamples
import Verif.ExampleStuck
import Verif.StressStuck
import Verif.Stack.Stuck
import Verif.Queue.Stuck
import Verif.Spsc.StressStuck
import Verif.Freelist.TesterStuck
import Verif.StuckExamples
import Verif.Sequential
import Verif.SequentialUse
import Verif.SequentialExamples
import Verif.Freelist.Unsync
import Verif.Freelist.UnsyncProps
import Verif.Freelist.UnsyncExamples
import Verif.Delay
import Verif.Stack.Delay
import Verif.Stack.DelayExamples
import Verif.ExampleEnds
import Verif.ExampleOwn
import Verif.Stack.ExampleEnds
import Verif.Stack.ExampleEndsExamples
import Verif.Queue.Delay
import Verif.Queue.DelayExamples
import Verif.Queue.ExampleEnds
import Verif.Queue.ExampleEndsExamples
import Verif.Freelist.Delay
import Verif.Freelist.DelayExamples
import Verif.TextStarve
import Verif.Freelist.Starve
import Verif.Freelist.StarveExamples
import Verif.Stack.TextStarve
import Verif.Stack.TextStarveExamples
import Verif.Queue.TextStarve
import Verif.Queue.TextStarveExamples
