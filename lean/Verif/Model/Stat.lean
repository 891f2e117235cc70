import Verif.Model.Json

/-!
# Statistics phases: tudocomp_stat/{StatPhase,PhaseData}.hpp

`StatPhase` objects are local variables, so they end in the opposite order of their beginning: the chain of `m_parent` from `s_current` is a stack.
Every time an object is created or logs a value, memory is allocated for the bookkeeping itself (`new PhaseData`, `new keyval`, `std::to_string`):
these allocations are arguments of the operations and go through `track` like all others.  Byte counts are integers without overflow.
-/

namespace Tdc.Stat

/-- allocation and release of some number of bytes -/
inductive Mem where
  | alloc (n : Nat)
  | free (n : Nat)

/-- PhaseData.hpp:30-48; a list for the siblings, and for the linked list of `keyval` -/
inductive Data where
  | mk (title : List UInt8) (start stop : Nat) (off cur peak : Int) (stats : List (List UInt8 × List UInt8)) (sub : List Data)

/-- A `StatPhase` object (StatPhase.hpp:56-60) with the data it points at. -/
structure Phase where
  title : List UInt8
  start : Nat
  stop : Nat
  off : Int
  cur : Int
  peak : Int
  stats : List (List UInt8 × List UInt8)
  sub : List Data
  track : Bool

def Phase.data (p : Phase) : Data := .mk p.title p.start p.stop p.off p.cur p.peak p.stats p.sub

/-- the current phase first -/
abbrev Stack := List Phase

/-- `strncpy(buf, s, 64)` for a buffer of 64 bytes and a string which ends at its first 0 -/
def strncpy (s : List UInt8) : List UInt8 :=
  let s := (s.takeWhile (· ≠ 0)).take 64
  s ++ List.replicate (64 - s.length) 0

/-- reading such a buffer as a C string: without a 0 the read leaves the buffer -/
def cstr (b : List UInt8) : Res (List UInt8) := if 0 ∈ b then .ok (b.takeWhile (· ≠ 0)) else .error .ub

/-- StatPhase.hpp:74-80 `track_alloc_internal`, :82-87 `track_free_internal` -/
def track (m : Mem) : Stack → Stack
  | [] => []
  | p :: s =>
    if p.track then
      (match m with
       | .alloc n => { p with cur := p.cur + n, peak := max p.peak (p.cur + n) }
       | .free n => { p with cur := p.cur - n }) :: track m s
    else p :: s

/-- StatPhase.hpp:174-176, 187-189 `track_alloc`, `track_free`: what malloc.cpp calls -/
def trackAll (ms : List Mem) (s : Stack) : Stack := ms.foldl (fun s m => track m s) s

/-- :89-91 `pause`, :93-95 `resume` of the object at some depth -/
def setTrack (b : Bool) : Nat → Stack → Stack
  | _, [] => []
  | 0, p :: s => { p with track := b } :: s
  | d + 1, p :: s => p :: setTrack b d s

/-- :62-72 `append_child` -/
def addSub (d : Data) : Stack → Stack
  | [] => []
  | p :: s => { p with sub := p.sub ++ [d] } :: s

/-- `mem_current` of the current phase, or 0 (:106) -/
def topCur : Stack → Int
  | [] => 0
  | p :: _ => p.cur

/-- :97-115 `init`; `now` is the time. The object itself is not on the stack yet; `resume` follows (:238-242). -/
def init (title : List UInt8) (own : List Mem) (now : Nat) (s : Stack) : Stack :=
  let s := setTrack false 0 s
  let s := trackAll own s
  let s := setTrack true 0 s
  ⟨strncpy title, now, 0, topCur s, 0, 0, [], [], true⟩ :: s

/-- :117-131 `finish`, for the current phase with tracking paused (:253-258); `own` is the release of the data of a root. -/
def finish (own : List Mem) (now : Nat) : Stack → Stack
  | [] => []
  | p :: s =>
    let p := { p with stop := now, track := false }
    match s with
    | [] => (trackAll own [p]).tail
    | _ => addSub p.data s

/-- :264-278 `split` -/
def split (title : List UInt8) (own own' : List Mem) (now now' : Nat) : Stack → Stack
  | [] => []
  | p :: s =>
    let r := init title own' now' (finish own now (p :: s))
    match s with
    | [] => r
    | _ =>
      match r with
      | [] => []
      | q :: r => { q with off := p.off + p.cur } :: r

/-- PhaseData.hpp:66-83, StatPhase.hpp:298-304: `log_stat` of the object at some depth -/
def logStat (d : Nat) (key val : List UInt8) (own : List Mem) (s : Stack) : Stack :=
  let s := setTrack false d s
  let s := trackAll own s
  let s := s.modify d fun p => { p with stats := p.stats ++ [(strncpy key, strncpy val)] }
  setTrack true d s

/-! ## Histories -/

/-- What a program can do. The clock is read when a phase begins and ends. -/
inductive Ev where
  /-- a constructor (:238-242) -/
  | begin (title : List UInt8) (own : List Mem)
  /-- the destructor (:253-258) of the current phase -/
  | fin (own : List Mem)
  /-- `split` of the current phase -/
  | split (title : List UInt8) (own own' : List Mem)
  /-- `log_stat` of the object at some depth (0 is the current one: `StatPhase::log`, :217-219) -/
  | log (depth : Nat) (key val : List UInt8) (own : List Mem)
  /-- `malloc`, `free` -/
  | mem (m : Mem)
  /-- `pause_tracking` (:196-198) -/
  | pause
  /-- `resume_tracking` (:204-206) -/
  | resume

/-- `clock i` is the i-th reading of the clock; the number of readings so far is part of the state. -/
def step (clock : Nat → Nat) : Stack × Nat → Ev → Stack × Nat
  | (s, i), .begin t own => (init t own (clock i) s, i + 1)
  | (s, i), .fin own => (finish own (clock i) s, i + 1)
  | (s, i), .split t own own' => (split t own own' (clock i) (clock (i + 1)) s, i + 2)
  | (s, i), .log d k v own => (logStat d k v own s, i)
  | (s, i), .mem m => (track m s, i)
  | (s, i), .pause => (setTrack false 0 s, i)
  | (s, i), .resume => (setTrack true 0 s, i)

def run (clock : Nat → Nat) (st : Stack × Nat) (h : List Ev) : Stack × Nat := h.foldl (step clock) st

/-! ## The report -/

open Json

/-- PhaseData.hpp:94-103: the array of logged values -/
def statsJson : List (List UInt8 × List UInt8) → Res (List JV)
  | [] => .ok []
  | (k, v) :: l => (cstr k).bind fun k => (cstr v).bind fun v => (statsJson l).bind fun r =>
    .ok (.obj (setField (bytes "value") (.str v) (setField (bytes "key") (.str k) [])) :: r)

mutual
/-- PhaseData.hpp:85-116 `to_json` -/
def Data.toJson : Data → Res JV
  | .mk title start stop off cur peak stats sub =>
    (cstr title).bind fun t => (statsJson stats).bind fun st => (toJsonAll sub).bind fun su =>
    .ok (.obj (setField (bytes "sub") (.arr su) (setField (bytes "stats") (.arr st) (setField (bytes "memFinal") (.num cur) (setField (bytes "memPeak") (.num peak)
      (setField (bytes "memOff") (.num off) (setField (bytes "timeEnd") (.num stop) (setField (bytes "timeStart") (.num start) (setField (bytes "title") (.str t) [])))))))))
/-- :106-112 -/
def toJsonAll : List Data → Res (List JV)
  | [] => .ok []
  | d :: l => d.toJson.bind fun j => (toJsonAll l).bind fun r => .ok (j :: r)
end

/-- StatPhase.hpp:311-321 `to_json` of the object at the bottom of the stack, which is the only one left; the time is read first. -/
def report (clock : Nat → Nat) : Stack × Nat → Res JV
  | ([p], i) => ({ p with stop := clock i } : Phase).data.toJson
  | _ => .error .ub

end Tdc.Stat
