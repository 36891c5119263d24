import Verif.Spec.Tree

namespace Verif.Spec
variable {V : Type}

/-- Forward evaluation of a graph into expressions, the loop shown in the docstring of
`forward_graph` (src/protosym/core/tree.py:361-364):
`stack.append(head(*[stack[i] for i in indices]))`. -/
def replay (stack : List (Tree V)) : List (Tree V × List Nat) → PyM (List (Tree V))
  | [] => .ok stack
  | (head, indices) :: rest => do
    let args ← indices.mapM (fun i => pyGet stack i)
    replay (stack ++ [head.call args]) rest

end Verif.Spec
