import Verif.Model.Stat

/-!
# What statistics phases report

A program is a list of actions; a phase is a block of actions.
-/

namespace Tdc.Stat

open Json

/-- The actions of a phase. The lists `own` are the allocations of the bookkeeping, which must not be counted. -/
inductive Act where
  /-- allocate or release memory -/
  | mem (m : Mem)
  /-- the same between `pause_tracking` and `resume_tracking` -/
  | quiet (ms : List Mem)
  /-- `StatPhase::log(key, value)` -/
  | log (key val : List UInt8) (own : List Mem)
  /-- a block with a `StatPhase` object -/
  | phase (title : List UInt8) (own own' : List Mem) (body : List Act)

mutual
/-- the calls a program makes -/
def events : Act → List Ev
  | .mem m => [.mem m]
  | .quiet ms => [.pause] ++ ms.map .mem ++ [.resume]
  | .log k v own => [.log 0 k v own]
  | .phase t own own' body => .begin t own :: eventsAll body ++ [.fin own']
def eventsAll : List Act → List Ev
  | [] => []
  | a :: l => events a ++ eventsAll l
end

mutual
/-- the allocations which count, in their order -/
def counted : Act → List Mem
  | .mem m => [m]
  | .quiet _ => []
  | .log _ _ _ => []
  | .phase _ _ _ body => countedAll body
def countedAll : List Act → List Mem
  | [] => []
  | a :: l => counted a ++ countedAll l
end

/-- bytes allocated minus bytes released -/
def total : List Mem → Int
  | [] => 0
  | .alloc n :: l => n + total l
  | .free n :: l => -n + total l

/-- the largest total at any time -/
def IsPeak (p : Int) (l : List Mem) : Prop := (∃ k, p = total (l.take k)) ∧ ∀ k, total (l.take k) ≤ p

/-- the values logged in the phase itself -/
def logged : List Act → List (List UInt8 × List UInt8)
  | [] => []
  | .log k v _ :: l => (k, v) :: logged l
  | _ :: l => logged l

mutual
/-- `j` is the report of a phase with this title and these actions, which began when `off` bytes were allocated in the phase around it, and lasted
within the times from `lo` to `hi`. -/
def Reports (j : JV) (title : List UInt8) (off lo hi : Int) : List Act → Prop
  | body => ∃ (peak start stop : Int) (subs : List JV), IsPeak peak (countedAll body) ∧ lo ≤ start ∧ start ≤ stop ∧ stop ≤ hi ∧
      SubReports subs 0 start stop body ∧
      j = .obj [(bytes "memFinal", .num (total (countedAll body))), (bytes "memOff", .num off), (bytes "memPeak", .num peak),
        (bytes "stats", .arr ((logged body).map fun e => .obj [(bytes "key", .str e.1), (bytes "value", .str e.2)])), (bytes "sub", .arr subs),
        (bytes "timeEnd", .num stop), (bytes "timeStart", .num start), (bytes "title", .str title)]
/-- the reports of the phases among the actions, in their order; `off` bytes are allocated before -/
def SubReports (js : List JV) (off lo hi : Int) : List Act → Prop
  | [] => js = [] ∧ lo ≤ hi
  | .phase t _ _ body :: l => ∃ j js' mid, js = j :: js' ∧ Reports j t off lo mid body ∧ SubReports js' (off + total (countedAll body)) mid hi l
  | .mem m :: l => SubReports js (off + total [m]) lo hi l
  | .quiet _ :: l => SubReports js off lo hi l
  | .log _ _ _ :: l => SubReports js off lo hi l
end

/-- a title, key or value of fewer than 64 bytes, none of them 0 -/
def Short (s : List UInt8) : Prop := s.length < 64 ∧ 0 ∉ s

mutual
/-- All titles, keys and values satisfy `P`. -/
def Act.Names (P : List UInt8 → Prop) : Act → Prop
  | .mem _ => True
  | .quiet _ => True
  | .log k v _ => P k ∧ P v
  | .phase t _ _ body => P t ∧ NamesAll P body
def NamesAll (P : List UInt8 → Prop) : List Act → Prop
  | [] => True
  | a :: l => a.Names P ∧ NamesAll P l
end

end Tdc.Stat
