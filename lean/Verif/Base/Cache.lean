import Verif.Base.Bn256

/-!
# Model of the hasher caches

Models the use of `OnceCell` in `poseidon-base/src/hash.rs:94-99, 110-116` and of `lazy_static!` in
`poseidon-base/src/params.rs:21-24`, as a small-step interleaving machine.

Assumed behaviour of `once_cell::sync::OnceCell::get_or_init` and `lazy_static` (not in the
repository): a cell is empty, being initialised by one thread, or holds a value for ever; a thread
that finds it being initialised by another thread waits.
-/

namespace Base.Cache

/-- A once-cell. -/
inductive Cell (V : Type) where
  | empty
  | running (thread : ℕ)
  | ready (v : V)

/-- A request: the cells it reads, in order, and what it computes from the values it got. `hash` calls
read the hasher cell (cloning the content) and then the constants. -/
structure Call (Id V R : Type) where
  cells : List Id
  run : List V → R

/-- A thread: the values obtained so far for the current call, the cells of the current call still to
be read, the calls to do (the head is the current one) and the results returned so far. -/
structure Thread (Id V R : Type) where
  got : List V
  need : List Id
  calls : List (Call Id V R)
  results : List R

structure World (Id V R : Type) where
  cells : Id → Cell V
  threads : ℕ → Thread Id V R

variable {Id V R : Type} [DecidableEq Id]

/-- A thread about to start on a list of calls. -/
def Thread.start (calls : List (Call Id V R)) (results : List R) : Thread Id V R :=
  { got := [], need := (calls.head?.map Call.cells).getD [], calls := calls, results := results }

/-- One atomic step of thread `t`. `init` is the (deterministic) initialiser of each cell. -/
inductive Step (init : Id → V) (t : ℕ) : World Id V R → World Id V R → Prop where
  /-- the cell is ready: clone its value -/
  | read (w : World Id V R) (i : Id) (rest : List Id) (v : V)
      (hneed : (w.threads t).need = i :: rest) (hcell : w.cells i = .ready v) :
      Step init t w { w with
        threads := Function.update w.threads t
          { w.threads t with got := (w.threads t).got ++ [v], need := rest } }
  /-- the cell is empty: this thread becomes the initialiser -/
  | claim (w : World Id V R) (i : Id) (rest : List Id)
      (hneed : (w.threads t).need = i :: rest) (hcell : w.cells i = .empty) :
      Step init t w { w with cells := Function.update w.cells i (.running t) }
  /-- this thread finishes the initialiser and publishes the value -/
  | publish (w : World Id V R) (i : Id) (rest : List Id)
      (hneed : (w.threads t).need = i :: rest) (hcell : w.cells i = .running t) :
      Step init t w { w with cells := Function.update w.cells i (.ready (init i)) }
  /-- all cells were read: compute the result and go to the next call -/
  | finish (w : World Id V R) (c : Call Id V R) (cs : List (Call Id V R))
      (hneed : (w.threads t).need = []) (hcalls : (w.threads t).calls = c :: cs) :
      Step init t w { w with
        threads := Function.update w.threads t
          (Thread.start cs ((w.threads t).results ++ [c.run (w.threads t).got])) }

/-- Worlds reachable from empty cells, thread `t` having `progs t` to do, under any schedule. -/
inductive Reachable (init : Id → V) (progs : ℕ → List (Call Id V R)) : World Id V R → Prop where
  | start : Reachable init progs
      { cells := fun _ => .empty, threads := fun t => Thread.start (progs t) [] }
  | step (w w' : World Id V R) (t : ℕ) : Reachable init progs w → Step init t w w' →
      Reachable init progs w'

/-! ## The cells and calls of the crate -/

open Bn256

/-- The three once-cells. -/
inductive CellId where
  /-- `INIT` in `Hashable::hasher`, hash.rs:95 -/
  | hasher
  /-- `INIT` in `MessageHashable::msg_hasher`, hash.rs:112 -/
  | msgHasher
  /-- `CONSTANTS`, params.rs:23 -/
  | constants
  deriving DecidableEq

/-- Cell contents. -/
inductive Val where
  | hasher (h : Hash Fr 3 2)
  | constants (c : Except Panic (List (State Fr 3)))

/-- The initialisers: `Hash::init` for the two hashers and `P128Pow5T3Compact::constants`. -/
def initVal : CellId → Val
  | .hasher => .hasher (Hash.init (.constantLengthIden3 2))
  | .msgHasher => .hasher (Hash.init .variableLengthIden3)
  | .constants => .constants cachedRoundConstants

/-- The API calls a thread can make. -/
inductive Api where
  | hashWithDomain (inp : Fin 2 → Fr) (domain : Fr)
  | hashMsg (msg : List Fr) (cap : Option ℕ)

/-- `hash_with_domain` (hash.rs:90-92) clones the cached hasher and hashes with it, `hash_msg`
(hash.rs:105-108) likewise; both read the constants when they permute. -/
def Api.call (short legacy : Bool) : Api → Call CellId Val (Except Panic Fr)
  | .hashWithDomain inp d =>
    { cells := [.hasher, .constants]
      run := fun
        | [.hasher h, .constants c] => do
          let rc ← c
          h.hashIden3 (permute (hashSpec short) mds rc) inp d
        | _ => .error .index }
  | .hashMsg msg cap =>
    { cells := [.msgHasher, .constants]
      run := fun
        | [.hasher h, .constants c] => do
          let rc ← c
          let dflt ← defaultCap legacy msg.length
          h.hashWithCap (permute (hashSpec short) mds rc) msg (cap.getD dflt)
        | _ => .error .index }

end Base.Cache
