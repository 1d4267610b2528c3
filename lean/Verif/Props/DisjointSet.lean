import Verif.DisjointSetWorld
import Verif.DisjointSetExact

/-! # Properties of `DisjointSet` (C18, C19, C20, C79) -/

namespace Verif.DSU

open Prog Vec

/-- `DisjointSet s(n);` followed by the history `ops` returns normally; the object is `v` and
memory is `m` afterwards. -/
def Reaches (n : Nat) (ops : List Op) (v : Vec) (m : Mem Int) : Prop :=
  ∃ m0, Returns (ctor n) Mem.init v m0 ∧ Returns (run v ops) m0 () m

theorem reaches_holds {n : Nat} (hn : 0 < n) (hs : n < 2 ^ 31) {ops : List Op} (hg : Guarded n [] ops) :
    ∃ v m ρ, Reaches n ops v m ∧ Holds n (pairs ops) ρ v m := by
  obtain ⟨v, m0, h1, h2⟩ := ctor_ok n (by omega) hs
  obtain ⟨_, m, h3, ρ, h4, _⟩ := run_ok ops h2 hg
  exact ⟨v, m, ρ, ⟨m0, h1, h3⟩, by simpa using h4⟩

/-- **C18.**  For every history whose `connect`s join unconnected elements, the history returns and
afterwards `connected(i, j)` returns exactly whether `i` and `j` are related by the equivalence
closure of the connected pairs.  Missing from the full statement: histories that `connect` two
already connected elements; `dsu_reconnect_hangs` shows that those break the structure. -/
theorem dsu_connected_partial (n : Nat) (hn : 0 < n) (hs : n < 2 ^ 31) (ops : List Op)
    (hg : Guarded n [] ops) :
    ∃ v m, Reaches n ops v m ∧ ∀ i j, i < n → j < n →
      ∃ c m', Returns (connected v i j) m c m' ∧ (c = true ↔ Conn (pairs ops) i j) := by
  obtain ⟨v, m, ρ, h1, h2⟩ := reaches_holds hn hs hg
  refine ⟨v, m, h1, fun i j hi hj => ?_⟩
  obtain ⟨c, m', h3, h4, _⟩ := connected_ok h2 hi hj
  obtain ⟨_, A, _, hI⟩ := h2
  exact ⟨c, m', h3, h4.trans (hI.conn i j hi hj)⟩

/-- **C18, C19, failing case.**  After any guarded history, `connect(a, b)` of two already connected
elements returns, but from then on `find` (hence also `connected` and `connect`) never terminates on
any element of their class. -/
theorem dsu_reconnect_hangs (n : Nat) (hn : 0 < n) (hs : n < 2 ^ 31) (ops : List Op)
    (hg : Guarded n [] ops) (a b : Nat) (ha : a < n) (hb : b < n) (hab : Conn (pairs ops) a b) :
    ∃ v m, Reaches n (ops ++ [.connect a b]) v m ∧ ∀ i, i < n → Conn (pairs ops) a i →
      Diverges (findVal v i) m ∧ ∀ j : Int, Diverges (connected v i j) m ∧ Diverges (connect v i j) m := by
  obtain ⟨v, m, ρ, ⟨m0, h1, h1'⟩, h2⟩ := reaches_holds hn hs hg
  obtain ⟨_, m', h3, A, h4, h5, h6⟩ := connect_loop h2 ha hb hab
  refine ⟨v, m', ⟨m0, h1, ?_⟩, ?_⟩
  · have : ∀ (ps qs : List (Prog (Mem Int) Unit)) s t u, Returns (seqAll ps) s () t →
        Returns (seqAll qs) t () u → Returns (seqAll (ps ++ qs)) s () u := by
      intro ps qs s t u
      induction ps generalizing s with
      | nil => intro h h'; cases h; exact h'
      | cons p ps ih =>
        intro h h'
        simp only [seqAll, List.cons_append, Returns, Prog.bind_apply] at h ⊢
        rcases hp : p s with _ | _ | ⟨⟨⟩, s1⟩
        · simp [hp] at h
        · simp [hp] at h
        · simp only [hp] at h ⊢
          exact ih s1 h h'
    unfold run
    rw [List.map_append]
    refine this _ _ _ _ _ h1' ?_
    show Returns (do connect v a b; pure ()) m () m'
    unfold Returns
    rw [bind_returns h3]
    rfl
  · intro i hi hc
    have hd : Diverges (find v (.val (i : Int))) m' :=
      find_diverges (.val (i : Int)) m' ⟨A, i, h4, by omega, Or.inl rfl, h6 i hi hc⟩
    exact ⟨bind_diverges hd, fun j => ⟨bind_diverges hd, bind_diverges (bind_diverges hd)⟩⟩

/-- **C19.**  After every guarded history `find` terminates on every element, returns one
representative per class, is idempotent, and neither `find` nor `connected` changes any later answer
of `find` or `count`.  Missing from the full statement: histories excluded by the guard (see
`dsu_reconnect_hangs`). -/
theorem dsu_find_partial (n : Nat) (hn : 0 < n) (hs : n < 2 ^ 31) (ops : List Op)
    (hg : Guarded n [] ops) :
    ∃ v m, Reaches n ops v m ∧ ∃ (ρ : Nat → Nat) (k : Nat),
      (∀ i, i < n → ρ i < n ∧ ρ (ρ i) = ρ i) ∧
      (∀ i j, i < n → j < n → (ρ i = ρ j ↔ Conn (pairs ops) i j)) ∧
      ∀ qs, (∀ q ∈ qs, q.Valid n ∧ q.pair = []) → ∃ m', Returns (run v qs) m () m' ∧
        (∀ i, i < n → ∃ m'', Returns (findVal v i) m' (ρ i) m'') ∧
        Returns (count v) m' k m' := by
  obtain ⟨v, m, ρ, h1, h2⟩ := reaches_holds hn hs hg
  obtain ⟨hw, A, hr, hI⟩ := h2
  refine ⟨v, m, h1, ρ, n - (pairs ops).length, fun i hi => ⟨hI.rho_lt hi, hI.rho_rho hi⟩,
    fun i j hi hj => hI.conn i j hi hj, ?_⟩
  intro qs hq
  have hqg : ∀ ps, Guarded n ps qs := by
    induction qs with
    | nil => intro _; trivial
    | cons q qs ih =>
      intro ps
      obtain ⟨hv, hp⟩ := hq q (List.mem_cons_self ..)
      refine ⟨hv, ?_, ih (fun q' hq' => hq q' (List.mem_cons_of_mem _ hq')) _⟩
      cases q <;> first | trivial | simp [Op.pair] at hp
  have hqp : pairs qs = [] := by
    simp only [pairs, List.flatMap_eq_nil_iff]
    exact fun q h => (hq q h).2
  obtain ⟨_, m', h3, ρ', h4, h5⟩ := run_ok qs ⟨hw, A, hr, hI⟩ (hqg _)
  rw [hqp, List.append_nil, h5 hqp] at h4
  refine ⟨m', h3, ?_, ?_⟩
  · intro i hi
    obtain ⟨x, m'', h6, rfl, _⟩ := findVal_ok h4 hi
    exact ⟨m'', h6⟩
  · obtain ⟨k, m'', h6, rfl, h7, _⟩ := count_ok h4
    rw [show n - (pairs ops).length = k by omega]
    exact h6

/-- **C20.**  After every guarded history `count()` returns the number of equivalence classes of
`0 … n-1` (the size of a set of representatives), which is `n` minus the number of `connect`s.  Missing
from the full statement: histories excluded by the guard. -/
theorem dsu_count_partial (n : Nat) (hn : 0 < n) (hs : n < 2 ^ 31) (ops : List Op)
    (hg : Guarded n [] ops) :
    ∃ v m k, Reaches n ops v m ∧ Returns (count v) m k m ∧ k + (pairs ops).length = n ∧
      ∃ reps, Transversal n (pairs ops) reps ∧ reps.length = k := by
  obtain ⟨v, m, ρ, h1, h2⟩ := reaches_holds hn hs hg
  obtain ⟨k, m', h3, rfl, h4, h5⟩ := count_ok h2
  exact ⟨v, m', k, h1, h3, h4, h5⟩

theorem reaches_gholds {n : Nat} (hn : 0 < n) (hs : n < 2 ^ 31) {ops : List Op} (hv : ∀ op ∈ ops, op.Valid n)
    (hu : Usable [] ops) : ∃ v m ρ, Reaches n ops v m ∧ GHolds n (pairs ops) (Dead ops) ρ v m := by
  obtain ⟨v, m0, h1, h2⟩ := gctor n (by omega) hs
  obtain ⟨_, m, h3, ρ, h4, _⟩ := grun ops h2 hv hu
  exact ⟨v, m, ρ, ⟨m0, h1, h3⟩, h4⟩

theorem reaches_usable {n : Nat} (hn : 0 < n) (hs : n < 2 ^ 31) {ops : List Op} (hv : ∀ op ∈ ops, op.Valid n)
    {v : Vec} {m : Mem Int} (h : Reaches n ops v m) :
    Usable [] ops ∧ ∃ ρ, GHolds n (pairs ops) (Dead ops) ρ v m := by
  obtain ⟨m0, h1, h2⟩ := h
  obtain ⟨v', m0', g1, g2⟩ := gctor n (by omega) hs
  obtain ⟨rfl, rfl⟩ := h1.det g1
  by_cases hu : Usable [] ops
  · obtain ⟨_, m', h3, ρ, h4, _⟩ := grun ops g2 hv hu
    obtain ⟨_, rfl⟩ := h2.det h3
    exact ⟨hu, ρ, h4⟩
  · have := grun_diverges ops g2 hv hu
    rw [Diverges, h2] at this
    cases this

/-- **C18, C19, exact range.**  A history on valid indices, redundant `connect`s included, returns exactly when
it never looks up an element of a class in which two connected elements were connected before;
otherwise it never terminates. -/
theorem dsu_returns_iff (n : Nat) (hn : 0 < n) (hs : n < 2 ^ 31) (ops : List Op) (hv : ∀ op ∈ ops, op.Valid n) :
    ((∃ v m, Reaches n ops v m) ↔ Usable [] ops) ∧
      (¬ Usable [] ops → ∃ v m0, Returns (ctor n) Mem.init v m0 ∧ Diverges (run v ops) m0) := by
  refine ⟨⟨?_, ?_⟩, ?_⟩
  · rintro ⟨v, m, h⟩
    exact (reaches_usable hn hs hv h).1
  · intro hu
    obtain ⟨v, m, _, h, _⟩ := reaches_gholds hn hs hv hu
    exact ⟨v, m, h⟩
  · intro hu
    obtain ⟨v, m0, h1, h2⟩ := gctor n (by omega) hs
    exact ⟨v, m0, h1, grun_diverges ops h2 hv hu⟩

/-- **C18, any history.**  After every history that returns, redundant `connect`s included: `connected(i, j)`
returns the right answer when neither element is dead, and never terminates when one is.  In particular no
answer is ever wrong.  Missing from the full statement: that it terminates. -/
theorem dsu_connected_exact_partial (n : Nat) (hn : 0 < n) (hs : n < 2 ^ 31) (ops : List Op)
    (hv : ∀ op ∈ ops, op.Valid n) (v : Vec) (m : Mem Int) (h : Reaches n ops v m) (i j : Nat) (hi : i < n)
    (hj : j < n) :
    (¬ Dead ops i → ¬ Dead ops j →
      ∃ c m', Returns (connected v i j) m c m' ∧ (c = true ↔ Conn (pairs ops) i j)) ∧
    (Dead ops i ∨ Dead ops j → Diverges (connected v i j) m ∧ Diverges (connect v i j) m) := by
  obtain ⟨_, ρ, hg⟩ := reaches_usable hn hs hv h
  constructor
  · intro hdi hdj
    obtain ⟨c, m', h3, h4, _⟩ := gconnected hg hi hj hdi hdj
    obtain ⟨_, A, _, hI⟩ := hg
    exact ⟨c, m', h3, h4.trans (hI.conn i j hi hj)⟩
  · intro hd
    exact ⟨gconnected_diverges hg hi hj hd, gconnect_diverges hg hi hj hd⟩

/-- **C19, any history.**  After every history that returns, `find` answers with one representative per class on
the elements that are not dead, which no query changes, and never terminates on the dead ones. -/
theorem dsu_find_exact_partial (n : Nat) (hn : 0 < n) (hs : n < 2 ^ 31) (ops : List Op)
    (hv : ∀ op ∈ ops, op.Valid n) (v : Vec) (m : Mem Int) (h : Reaches n ops v m) :
    (∀ i, i < n → Dead ops i → Diverges (findVal v i) m) ∧ ∃ (ρ : Nat → Nat) (k : Nat),
      (∀ i, i < n → ρ i < n ∧ ρ (ρ i) = ρ i) ∧
      (∀ i j, i < n → j < n → (ρ i = ρ j ↔ Conn (pairs ops) i j)) ∧
      ∀ qs, (∀ q ∈ qs, q.Valid n ∧ q.pair = [] ∧ ∀ x ∈ q.args, ¬ Dead ops x) → ∃ m', Returns (run v qs) m () m' ∧
        (∀ i, i < n → ¬ Dead ops i → ∃ m'', Returns (findVal v i) m' (ρ i) m'') ∧
        Returns (count v) m' k m' := by
  obtain ⟨_, ρ, hg⟩ := reaches_usable hn hs hv h
  refine ⟨fun i hi hd => gfindVal_diverges hg hi hd, ?_⟩
  have hg' := hg
  obtain ⟨hw, A, hr, hI⟩ := hg
  refine ⟨ρ, n - (pairs ops).length, fun i hi => ⟨hI.rho_lt hi, hI.rho_rho hi⟩,
    fun i j hi hj => hI.conn i j hi hj, ?_⟩
  intro qs hq
  have hqp : ∀ a, (∀ q ∈ a, q ∈ qs) → Dead (ops ++ a) = Dead ops := by
    intro a
    generalize hr : a.reverse = b
    induction b generalizing a with
    | nil => rw [List.reverse_eq_nil_iff.1 hr]; simp
    | cons q b ih =>
      have e : a = b.reverse ++ [q] := by rw [← List.reverse_reverse a, hr]; simp
      subst e
      intro ha
      rw [← List.append_assoc, dead_snoc_query (hq q (ha q (by simp))).2.1]
      exact ih b.reverse (by simp) fun x hx => ha x (by simp at hx ⊢; exact Or.inl hx)
  have hu : Usable ops qs := by
    rintro a q b rfl x hx
    rw [hqp a (by intro y hy; simp [hy])]
    exact (hq q (by simp)).2.2 x hx
  have hqs : pairs qs = [] := by
    simp only [pairs, List.flatMap_eq_nil_iff]
    exact fun q h => (hq q h).2.1
  obtain ⟨_, m', h3, ρ', h4, h5⟩ := grun qs hg' (fun q h => (hq q h).1) hu
  rw [h5 hqs, hqp qs (fun _ h => h), show pairs (ops ++ qs) = pairs ops by
    have : pairs (ops ++ qs) = pairs ops ++ pairs qs := by simp [pairs]
    rw [this, hqs, List.append_nil]] at h4
  refine ⟨m', h3, ?_, ?_⟩
  · intro i hi hd
    obtain ⟨x, m'', h6, rfl, _⟩ := gfindVal h4 hi hd
    exact ⟨m'', h6⟩
  · obtain ⟨k, m'', h6, rfl, h7, _⟩ := gcount h4
    rw [show n - (pairs ops).length = k by omega]
    exact h6

/-- **C20, any history.**  After every history that returns, `count()` is `n` minus the number of `connect`s,
redundant ones included: it counts the classes that are not dead. -/
theorem dsu_count_exact_partial (n : Nat) (hn : 0 < n) (hs : n < 2 ^ 31) (ops : List Op)
    (hv : ∀ op ∈ ops, op.Valid n) (v : Vec) (m : Mem Int) (h : Reaches n ops v m) :
    ∃ k, Returns (count v) m k m ∧ k + (pairs ops).length = n ∧
      ∃ reps, LiveTransversal n ops reps ∧ reps.length = k := by
  obtain ⟨_, ρ, hg⟩ := reaches_usable hn hs hv h
  obtain ⟨k, m', h3, rfl, h4, reps, h5, h6, h7⟩ := gcount hg
  obtain ⟨_, A, _, hI⟩ := hg
  refine ⟨k, h3, h4, reps, ⟨h6, fun r hr => ((h7 r).1 hr).1, fun r hr => ((h7 r).1 hr).2.1, ?_, ?_⟩, h5⟩
  · intro r hr s hs' hc
    obtain ⟨r1, _, r2⟩ := (h7 r).1 hr
    obtain ⟨s1, _, s2⟩ := (h7 s).1 hs'
    rw [← r2, ← s2]
    exact (hI.conn r s r1 s1).2 hc
  · intro i hi hd
    have hl := hI.rho_lt hi
    refine ⟨ρ i, (h7 _).2 ⟨hl, fun h => hd ((hI.dead_rho hi).1 h), hI.rho_rho hi⟩, ?_⟩
    exact (hI.conn i (ρ i) hi hl).1 (hI.rho_rho hi).symm

/-- **C20, failing case.**  Once two connected elements have been connected, `count()` is smaller than the number
of classes. -/
theorem dsu_count_wrong (n : Nat) (hn : 0 < n) (hs : n < 2 ^ 31) (ops : List Op)
    (hv : ∀ op ∈ ops, op.Valid n) (v : Vec) (m : Mem Int) (h : Reaches n ops v m) (i : Nat) (hi : i < n)
    (hd : Dead ops i) (reps : List Nat) (ht : Transversal n (pairs ops) reps) :
    ∃ k, Returns (count v) m k m ∧ k < reps.length := by
  obtain ⟨k, h1, _, L, h2, rfl⟩ := dsu_count_exact_partial n hn hs ops hv v m h
  refine ⟨_, h1, ?_⟩
  obtain ⟨_, ρ, _, A, _, hI⟩ := reaches_usable hn hs hv h
  have hni : ∀ x ∈ L, ¬ Conn (pairs ops) x i := fun x hx hc =>
    h2.live x hx ((hI.dead_conn (h2.lt x hx) hi hc).2 hd)
  have := ht.le (L := i :: L) (List.nodup_cons.2 ⟨fun hm => hni i hm (.refl _), h2.nodup⟩)
    (by simpa using ⟨hi, h2.lt⟩) (by
      intro x hx y hy hc
      simp only [List.mem_cons] at hx hy
      rcases hx with rfl | hx <;> rcases hy with rfl | hy
      · rfl
      · exact (hni y hy hc.symm).elim
      · exact (hni x hx hc).elim
      · exact h2.uniq x hx y hy hc)
  simp only [List.length_cons] at this
  omega

/-- **C79.**  For every legal history of constructions, `find`s, `connected`s, `connect`s, copies, moves and
destructions of any number of disjoint sets, nothing faults and every object shows its own size, classes and
connections: a copy starts with those of its source and the two are independent from then on, a
moved-from object is empty.  Storage is released exactly once, and none is left when no object is left.
Missing from the full statement: histories that `connect` two already connected elements
(`dsu_reconnect_hangs`). -/
theorem dsu_copy_move_partial (ops : List WOp) (sw : SWorld) (hl : Legal ops (fun _ => none) sw) :
    ∃ w, Returns (wrun ops) World.init () w ∧ WShows w sw ∧ w.mem.lost = 0 ∧
      ((∀ k, sw k = none) → ∀ b, w.mem.blk b = none) := by
  obtain ⟨_, w, h1, vw, h2⟩ := wrun_ok hl WInv.init
  refine ⟨w, h1, h2.shows, h2.vec.lost, fun hn b => ?_⟩
  refine Classical.byContradiction fun hb => ?_
  obtain ⟨k, v, e, _⟩ := h2.vec.owned b hb
  rw [h2.none (hn k)] at e
  cases e

/-! ## The hypotheses are met by concrete, non-trivial histories -/

/-- Chains of connects and finds satisfy the guard. -/
example : Guarded 4 [] [.connect 0 1, .find 1, .connect 2 3, .connected 0 3, .connect 1 3] := by
  have h : ∀ (c : Nat → Nat) ps, (∀ p ∈ ps, c p.1 = c p.2) → ∀ a b, Conn ps a b → c a = c b := by
    intro c ps hp a b h
    induction h with
    | refl => rfl
    | pair h => exact hp _ h
    | symm _ ih => exact ih.symm
    | trans _ _ ih1 ih2 => exact ih1.trans ih2
  simp only [Guarded, Op.Valid, Op.Fresh, Op.pair, List.nil_append, List.append_nil, true_and, and_true]
  refine ⟨by omega, fun hc => ?_, by omega, by omega, fun hc => ?_, by omega, by omega, fun hc => ?_⟩
  · have := h id [] (by simp) _ _ hc; simp at this
  · have := h (fun x => x - 1) _ (by simp) _ _ hc; simp at this
  · have := h (fun x => x / 2) _ (by simp) _ _ hc; simp at this

/-- A redundant connect: `0` and `2` are already connected through `1`. -/
example : Conn (pairs [.connect 0 1, .find 2, .connect 1 2]) 0 2 :=
  .trans (.pair (b := 1) (by simp [pairs, Op.pair])) (.pair (by simp [pairs, Op.pair]))

/-- A history with a redundant connect that returns: `2` and `3` are still usable afterwards, `0` is dead. -/
example : Usable [] [.connect 0 1, .connect 1 0, .connect 2 3] ∧
    Dead [.connect 0 1, .connect 1 0, .connect 2 3] 0 ∧ ¬ Usable [] [.connect 0 1, .connect 1 0, .find 0] := by
  have h : ∀ (c : Nat → Nat) ps, (∀ p ∈ ps, c p.1 = c p.2) → ∀ a b, Conn ps a b → c a = c b := by
    intro c ps hp a b h
    induction h with
    | refl => rfl
    | pair h => exact hp _ h
    | symm _ ih => exact ih.symm
    | trans _ _ ih1 ih2 => exact ih1.trans ih2
  have c01 : Conn (pairs [.connect 0 1]) 1 0 := .symm (.pair (by simp [pairs, Op.pair]))
  have n01 : ¬ Conn (pairs []) 0 1 := fun hc => by have := h id [] (by simp) _ _ hc; simp at this
  refine ⟨?_, ⟨[.connect 0 1], 1, 0, [.connect 2 3], rfl, c01, c01⟩, ?_⟩
  · refine usable_cons ?_ (usable_cons ?_ (usable_cons ?_ ?_))
    · intro x _
      rw [dead_nil]; exact id
    · intro x _
      rw [dead_snoc_connect, dead_nil]
      rintro (h | ⟨h, _⟩)
      · exact h
      · exact n01 h
    · intro x hx
      rw [dead_snoc_connect, dead_snoc_connect, dead_nil]
      rintro ((h | ⟨h, _⟩) | ⟨_, hc⟩)
      · exact h
      · exact n01 h
      · have := h (fun x => x / 2) _ (by simp [pairs, Op.pair]) _ _ hc
        simp [Op.args] at hx
        omega
    · rintro a o b e
      simp at e
  · intro hu
    exact hu [.connect 0 1, .connect 1 0] (.find 0) [] rfl 0 (by simp [Op.args])
      ⟨[.connect 0 1], 1, 0, [], rfl, c01, c01⟩

/-- A copy made between two connects: only the original has the second connection. -/
example : ∃ sw, Legal [.new 0 3, .op 0 (.connect 0 1), .newCopy 1 0, .op 0 (.connect 1 2), .newMove 2 0]
    (fun _ => none) sw ∧ sw 0 = some ⟨0, []⟩ ∧ sw 1 = some ⟨3, [(0, 1)]⟩ ∧ sw 2 = some ⟨3, [(0, 1), (1, 2)]⟩ := by
  have h : ∀ (c : Nat → Nat) ps, (∀ p ∈ ps, c p.1 = c p.2) → ∀ a b, Conn ps a b → c a = c b := by
    intro c ps hp a b h
    induction h with
    | refl => rfl
    | pair h => exact hp _ h
    | symm _ ih => exact ih.symm
    | trans _ _ ih1 ih2 => exact ih1.trans ih2
  refine ⟨_, .new rfl (by omega) (by omega) (.op (v := ⟨3, []⟩) rfl ⟨by decide, by decide⟩ ?_
    (.newCopy (v := ⟨3, [(0, 1)]⟩) rfl rfl (.op (v := ⟨3, [(0, 1)]⟩) rfl ⟨by decide, by decide⟩ ?_
      (.newMove (v := ⟨3, [(0, 1), (1, 2)]⟩) rfl rfl (.nil _))))), rfl, rfl, rfl⟩
  · intro hc
    have := h id [] (by simp) _ _ hc; simp at this
  · intro hc
    have := h (fun x => x / 2) _ (by simp) _ _ hc; simp at this

end Verif.DSU
