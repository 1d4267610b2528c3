import Verif.DisjointSetCost
import Verif.Props.DisjointSet

/-! # Cost of disjoint sets (C85, C86)

`find` makes one assignment for every link it follows, so assignments to the parent array
count the work. -/

namespace Verif.DSU

open Prog Vec

/-- **C85.**  Every history on valid indices that returns, redundant `connect`s included, makes at most
`3 log₂ n + 4` assignments per operation, on average. -/
theorem dsu_amortised (n : Nat) (hn : 0 < n) (hs : n < 2 ^ 31) (ops : List Op) (hv : ∀ op ∈ ops, op.Valid n)
    (v : Vec) (m0 m : Mem Int) (h0 : Returns (ctor n) Mem.init v m0) (h : Returns (run v ops) m0 () m) :
    m.moved ≤ m0.moved + ops.length * (3 * n.log2 + 4) := by
  have hu := (reaches_usable hn hs hv ⟨m0, h0, h⟩).1
  obtain ⟨v', m0', g1, h1, _, _, h4⟩ := ctorFill_ok (triv := true) Mem.WF.init n (by omega) (-1)
  obtain ⟨rfl, rfl⟩ := h0.det g1
  have hc : CHolds n (pairs []) (Dead []) id m0.moved v m0 := by
    rw [dead_nil]
    exact ⟨h4, _, h1, (Inv.init n hs).ginv, by rw [pot_init]; omega⟩
  obtain ⟨_, m', h2, h3⟩ := crun ops hc hv hu
  obtain ⟨_, rfl⟩ := h.det h2
  exact h3

/-- **C86.**  After every history that returns, `find` on a live element follows at most `n - 1` links, and a second
`find` of the same element at most one.  Missing from the full statement: the logarithmic
bound, which `dsu_find_linear` refutes. -/
theorem dsu_find_links_partial (n : Nat) (hn : 0 < n) (hs : n < 2 ^ 31) (ops : List Op) (hv : ∀ op ∈ ops, op.Valid n)
    (v : Vec) (m : Mem Int) (h : Reaches n ops v m) (i : Nat) (hi : i < n) (hd : ¬ Dead ops i) :
    ∃ x m1 m2, Returns (findVal v i) m x m1 ∧ m1.moved ≤ m.moved + (n - 1) ∧
      Returns (findVal v i) m1 x m2 ∧ m2.moved ≤ m1.moved + 1 := by
  obtain ⟨_, ρ, hw, A, hr, hI⟩ := reaches_usable hn hs hv h
  obtain ⟨d, hroot⟩ := hI.root i hi hd
  have hfind : ∀ {A : List Int} {d : Nat} {m : Mem Int}, Rep m v A → m.WF → A.length < 2 ^ 31 → Root A i (ρ i) d →
      ∃ m1 B, Returns (findVal v i) m (ρ i) m1 ∧ Rep m1 v B ∧ m1.WF ∧ Path A i (ρ i) d B ∧
        m1.moved = m.moved + d := by
    intro A d m r w l hroot
    obtain ⟨a, m1, h1, B, h2, h3, h4, h5, h6⟩ := find_path d r w l (Or.inl rfl) hroot
    exact ⟨m1, B, (bind_returns h1).trans (h5.get h2), h2, h3, h4, h6⟩
  have hlen := hI.len
  obtain ⟨m1, B, h1, r1, w1, p1, e1⟩ := hfind hr hw (by omega) hroot
  have hlt := hroot.depth_lt
  have hroot2 : ∃ e, e ≤ 1 ∧ Root B i (ρ i) e := by
    obtain ⟨x, hx, hx0⟩ := p1.keeps_root
    cases d with
    | zero =>
      have e : B = A := by
        generalize ρ i = r at p1
        cases p1; rfl
      rw [e]
      exact ⟨0, by omega, hroot⟩
    | succ d => exact ⟨1, by omega, .step p1.first (.base hx hx0)⟩
  obtain ⟨e, he, hroot2⟩ := hroot2
  obtain ⟨m2, C, h2, _, _, _, e2⟩ := hfind r1 w1 (by rw [p1.length]; omega) hroot2
  exact ⟨_, m1, m2, h1, by omega, h2, by omega⟩

/-- **C86, failing case.**  For every `n`, after `connect(n-2, n-1), …, connect(0, 1)` (none of them redundant)
`find(n-1)` follows all `n - 1` links: `union_set` compares the indices of the roots, not their ranks. -/
theorem dsu_find_linear (n : Nat) (hn : 0 < n) (hs : n < 2 ^ 31) :
    Guarded n [] (chain (n - 1)) ∧ ∃ v m m', Reaches n (chain (n - 1)) v m ∧
      Returns (findVal v ((n - 1 : Nat) : Int)) m 0 m' ∧ m'.moved = m.moved + (n - 1) := by
  refine ⟨chain_guarded _ (by omega) (by simp), ?_⟩
  obtain ⟨v, m0, g1, h1, _, _, h4⟩ := ctorFill_ok (triv := true) Mem.WF.init n (by omega) (-1)
  have e : List.replicate n (-1) = arr n (n - 1) := by
    apply List.ext_getElem?
    intro j
    by_cases hj : j < n
    · rw [arr_get hj, if_pos (by omega)]
      simp [hj]
    · rw [List.getElem?_eq_none (by simp; omega), List.getElem?_eq_none (by rw [arr_length]; omega)]
  rw [e] at h1
  obtain ⟨_, m, h2, w, r⟩ := chain_run (n - 1) hs (by omega) h1 h4
  obtain ⟨a, m', h5, B, h6, _, _, h7, h8⟩ := find_path (n - 1) r w (by rw [arr_length]; exact hs) (Or.inl rfl)
    (arr_root (show n - 1 < n by omega))
  exact ⟨v, m, m', ⟨m0, g1, h2⟩, (bind_returns h5).trans (h7.get h6), h8⟩

/-! ## The hypotheses are met by concrete, non-trivial histories -/

/-- A history with 4 elements that returns. -/
example : ∃ v m0 m, Returns (ctor 4) Mem.init v m0 ∧ Returns (run v (chain 3)) m0 () m := by
  obtain ⟨_, v, m, _, ⟨m0, h1, h2⟩, _⟩ := dsu_find_linear 4 (by omega) (by omega)
  exact ⟨v, m0, m, h1, h2⟩

example : chain 3 = [.connect 2 3, .connect 1 2, .connect 0 1] := rfl

end Verif.DSU
