import Verif.DisjointSetOrder

/-! # Specification: which replies a `DisjointSet` gives -/

namespace Verif.DSU

/-- Connecting the pair `(a, b)` gives the elements of the class of `b` the representative of `a`. -/
def join (ρ : Nat → Nat) (p : Nat × Nat) : Nat → Nat := fun i => if ρ i = ρ p.2 then ρ p.1 else ρ i

/-- The representative of each element after the pairs were connected in this order. -/
def repr (ps : List (Nat × Nat)) : Nat → Nat := ps.foldl join id

/-- The replies to `ops` when the pairs `ps` were connected before. -/
def specReplies (ps : List (Nat × Nat)) : List Op → List Reply
  | [] => []
  | .find i :: ops => .root (repr ps i) :: specReplies ps ops
  | .connected i j :: ops => .same (decide (repr ps i = repr ps j)) :: specReplies ps ops
  | .connect i j :: ops => .done :: specReplies (ps ++ [(i, j)]) ops

end Verif.DSU
