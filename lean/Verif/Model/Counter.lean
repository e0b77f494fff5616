/-
The state counter of an event: /repo/redGrapes/scheduler/event.hpp:91-94, event.cpp.
(`Model/Graph.lean` uses unbounded counters; this file has the 16 bits of the code.)
-/
namespace RG.Counter

/-- event.hpp:94 `std::atomic_uint16_t state` -/
abbrev Cnt := BitVec 16

/-- event.cpp:29 -/
def init : Cnt := 1

/-- event.cpp:47-50 `is_reached` -/
def reached (c : Cnt) : Bool := c == 0

/-- event.cpp:52-55 `is_ready` -/
def ready (c : Cnt) : Bool := c == 1

/-- event.cpp:57-60 `up`, and `follower->state++` in `add_follower`, event.cpp:75 -/
def up (c : Cnt) : Cnt := c + 1

/-- event.cpp:108 the new value of the counter -/
def down (c : Cnt) : Cnt := c - 1

/-- event.cpp:108-109: the local variable `state`, an `int` -/
def newState (c : Cnt) : Int := (c.toNat : Int) - 1

/-- event.cpp:146-150: `notify` of a pre-event activates the task -/
def activates (c : Cnt) : Bool := newState c == 1

/-- event.cpp:155, 163: `notify` finds that the event is reached now -/
def reaches (c : Cnt) : Bool := newState c == 0

/-- an edge to the event is added, or the predecessor of an edge (or the own body) is done -/
inductive Op
  | add
  | done

def apply (c : Cnt) : Op → Cnt
  | .add => up c
  | .done => down c

def run (l : List Op) : Cnt := l.foldl apply init

end RG.Counter
