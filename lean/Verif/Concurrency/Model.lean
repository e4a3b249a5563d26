/-
Model of concurrency/concurrency.h: `parallel_execute`, `range_job_provider`, `add_result_collector`.

Threads are interleaved in any order, at the granularity of the steps of the loop body.  Calls to the job provider
and to the result collector that change their state take two steps, one that reads the state and one that writes it
back, so that overlapping calls would be visible; `std::mutex` is a cell that holds its owner, and a thread that
waits for a mutex cannot take a step while the mutex is owned.
-/

namespace Altruct.Concurrency

variable {P J W R C : Type}

/-- The objects given to `parallel_execute`: the provider has a state `P`, a worker a state `W`, the collector a
state `C`. -/
structure Env (P J W R C : Type) where
  hasNext : P → Bool
  next : P → J × P
  createWorker : W
  execute : W → J → R × W
  collect : C → R → J → C

/-- Where a thread is in the loop of `func`, concurrency.h:55-66, with its local variables. -/
inductive Thread (P J W R C : Type) where
  | start
  | wantP (w : W)
  | heldP (w : W)
  | nextRead (w : W)
  | nextWrite (w : W) (p : P)
  | gotJob (w : W) (j : J)
  | running (w : W) (j : J)
  | wantC (w : W) (j : J) (r : R)
  | heldC (w : W) (j : J) (r : R)
  | collectWrite (w : W) (j : J) (r : R) (c : C)
  | collected (w : W)
  | exiting
  | done

/-- The shared state, the state of each thread, and two logs: the jobs executed, and the results collected. -/
structure Cfg (P J W R C : Type) where
  prov : P
  acc : C
  pOwner : Option Nat
  cOwner : Option Nat
  thr : Nat → Thread P J W R C
  execLog : List J
  collectLog : List (R × J)

/-- Replace the state of thread `i`. -/
def Cfg.setThr (c : Cfg P J W R C) (i : Nat) (t : Thread P J W R C) : Cfg P J W R C :=
  { c with thr := fun k => if k = i then t else c.thr k }

/-- concurrency.h:55-66 one step of thread `i`; `none` if it is blocked or has ended. -/
def step (E : Env P J W R C) (c : Cfg P J W R C) (i : Nat) : Option (Cfg P J W R C) :=
  match c.thr i with
  | .start => some (c.setThr i (.wantP E.createWorker))
  | .wantP w => if c.pOwner = none then some { c.setThr i (.heldP w) with pOwner := some i } else none
  | .heldP w => if E.hasNext c.prov then some (c.setThr i (.nextRead w)) else some (c.setThr i .exiting)
  | .nextRead w => some (c.setThr i (.nextWrite w c.prov))
  | .nextWrite w p => some { c.setThr i (.gotJob w (E.next p).1) with prov := (E.next p).2 }
  | .gotJob w j => some { c.setThr i (.running w j) with pOwner := none }
  | .running w j => some { c.setThr i (.wantC (E.execute w j).2 j (E.execute w j).1) with execLog := c.execLog ++ [j] }
  | .wantC w j r => if c.cOwner = none then some { c.setThr i (.heldC w j r) with cOwner := some i } else none
  | .heldC w j r => some (c.setThr i (.collectWrite w j r c.acc))
  | .collectWrite w j r a => some { c.setThr i (.collected w) with acc := E.collect a r j, collectLog := c.collectLog ++ [(r, j)] }
  | .collected w => some { c.setThr i (.wantP w) with cOwner := none }
  | .exiting => some { c.setThr i .done with pOwner := none }
  | .done => none

/-- A schedule: which thread takes each step. -/
def run (E : Env P J W R C) (c : Cfg P J W R C) : List Nat → Option (Cfg P J W R C)
  | [] => some c
  | i :: is => do
    let c ← step E c i
    run E c is

/-- concurrency.h:53-54 the initial configuration. -/
def init (p : P) (a : C) : Cfg P J W R C := ⟨p, a, none, none, fun _ => .start, [], []⟩

/-- concurrency.h:67-77 the number of threads that run `func`. -/
def threads (numThreads : Int) : Nat := if numThreads > 1 then numThreads.toNat else 1

/-! ### Providers and collectors -/

/-- concurrency.h:97-104 `range_job_provider`: begin, end, len.  Integers do not overflow. -/
structure Range where
  b : Int
  e : Int
  len : Int

/-- concurrency.h:101 `has_next_job`. -/
def Range.hasNext (s : Range) : Bool := decide (s.b < s.e)

/-- concurrency.h:102 `next_job`. -/
def Range.next (s : Range) : (Int × Int) × Range :=
  let b := s.b + s.len
  ((b - s.len, min b s.e), { s with b := b })

/-- concurrency.h:83-88 `add_result_collector`. -/
def addCollect {T J : Type} [Add T] (result r : T) (_ : J) : T := result + r

end Altruct.Concurrency
