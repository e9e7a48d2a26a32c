/-
Flame graph: internal/bpfsnoop/flamegraph.go.
-/
namespace Bpfsnoop.Flame

/-- flamegraph.go 15-19 `StackFrame`. Values are unbounded integers (Go `int`). -/
inductive Frame where
  | mk (name : String) (value : Int) (children : List Frame)

def Frame.name : Frame → String | .mk n _ _ => n
def Frame.value : Frame → Int | .mk _ v _ => v
def Frame.children : Frame → List Frame | .mk _ _ c => c

/-- flamegraph.go 46-53: the search loop over `current.Children`, stopping at the first child with the name;
`g` is what happens to that child. -/
def modifyFirst (name : String) (g : Frame → Frame) : List Frame → List Frame
  | [] => []
  | c :: cs => if c.name = name then g c :: cs else c :: modifyFirst name g cs

/-- flamegraph.go 44-65: the loop over the frames of the stack, descending from `current`. The pointer
`current` becomes recursion into the children of the frame found or created. -/
def insert (v : Int) : List String → List Frame → List Frame
  | [], cs => cs
  | f :: rest, cs =>
    if cs.any (fun c => c.name == f) then
      modifyFirst f (fun c => .mk c.name (c.value + v) (insert v rest c.children)) cs
    else cs ++ [.mk f v (insert v rest [])]

/-- flamegraph.go 22-25 `FlameGraph`. -/
structure Graph where
  root : Frame
  total : Int

/-- flamegraph.go 28-32 `NewFlameGraph`. -/
def newGraph : Graph := { root := .mk "root" 0 [], total := 0 }

/-- flamegraph.go 36-66 `AddStack`. -/
def Graph.addStack (g : Graph) (stack : List String) (v : Int) : Graph :=
  if stack = [] then g
  else
    { root := .mk g.root.name (g.root.value + v) (insert v stack g.root.children)
      total := g.total + v }

mutual
/-- flamegraph.go 74-103 `traverse`: a line is the path and the count; joining the path with `;` and
formatting is not modelled. -/
def traverse : Frame → List String → List (List String × Int)
  | .mk name value children, path =>
    if name ≠ "root" then
      let currentPath := path ++ [name]
      let selfValue := value - (children.map Frame.value).sum
      (if selfValue > 0 then [(currentPath, selfValue)] else []) ++ traverseList children currentPath
    else traverseList children path
/-- flamegraph.go 99-102: the recursion over the children. -/
def traverseList : List Frame → List String → List (List String × Int)
  | [], _ => []
  | c :: cs, path => traverse c path ++ traverseList cs path
end

/-- flamegraph.go 70-108 `generateFoldedStacks`. -/
def Graph.folded (g : Graph) : List (List String × Int) := traverse g.root []

/-- All stacks of a run added in order. -/
def addAll (g : Graph) (ss : List (List String × Int)) : Graph :=
  ss.foldl (fun g s => g.addStack s.1 s.2) g

end Bpfsnoop.Flame
