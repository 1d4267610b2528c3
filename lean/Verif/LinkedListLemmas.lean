import Verif.LinkedList

/-! # Lemmas about links and `LinkedList_` -/

namespace Verif.LL

open Prog

variable {α : Type}

/-! ## Chains of links -/

/-- Following `f` from each element of the list gives the next one. -/
def Chain (f : Ptr → Option Ptr) : List Ptr → Prop
  | [] => True
  | [_] => True
  | a :: b :: t => f a = some b ∧ Chain f (b :: t)

theorem Chain.append {f : Ptr → Option Ptr} (xs : List Ptr) (a : Ptr) (ys : List Ptr) :
    Chain f (xs ++ a :: ys) ↔ Chain f (xs ++ [a]) ∧ Chain f (a :: ys) := by
  induction xs with
  | nil => simp [Chain]
  | cons x xs ih =>
    cases xs with
    | nil => simp [Chain]
    | cons y xs =>
      simp only [List.cons_append, Chain] at ih ⊢
      rw [ih, and_assoc]

theorem Chain.congr {f f' : Ptr → Option Ptr} {l : List Ptr} (h : Chain f l)
    (e : ∀ p ∈ l.dropLast, f' p = f p) : Chain f' l := by
  induction l with
  | nil => trivial
  | cons a l ih =>
    cases l with
    | nil => trivial
    | cons b t =>
      simp only [List.dropLast_cons_cons] at e
      exact ⟨by rw [e a (List.mem_cons_self ..)]; exact h.1,
        ih h.2 fun p hp => e p (List.mem_cons_of_mem _ hp)⟩

theorem Chain.insertHead {f f' : Ptr → Option Ptr} {a b c : Ptr} {t : List Ptr}
    (h : Chain f (a :: b :: t)) (h1 : f' a = some c) (h2 : f' c = some b)
    (e : ∀ p ∈ (b :: t).dropLast, f' p = f p) : Chain f' (a :: c :: b :: t) :=
  ⟨h1, h2, h.2.congr e⟩

theorem Chain.insertLast {f f' : Ptr → Option Ptr} {a c z : Ptr} {xs : List Ptr}
    (h : Chain f (xs ++ [a, z])) (h1 : f' a = some c) (h2 : f' c = some z)
    (e : ∀ p ∈ xs, f' p = f p) : Chain f' (xs ++ [a, c, z]) := by
  rw [Chain.append] at h ⊢
  exact ⟨h.1.congr (by simpa using e), h1, h2, trivial⟩

theorem Chain.deleteHead {f f' : Ptr → Option Ptr} {a b c : Ptr} {t : List Ptr}
    (h : Chain f (a :: c :: b :: t)) (h1 : f' a = some b)
    (e : ∀ p ∈ (b :: t).dropLast, f' p = f p) : Chain f' (a :: b :: t) :=
  ⟨h1, h.2.2.congr e⟩

theorem Chain.deleteLast {f f' : Ptr → Option Ptr} {a c z : Ptr} {xs : List Ptr}
    (h : Chain f (xs ++ [a, c, z])) (h1 : f' a = some z)
    (e : ∀ p ∈ xs, f' p = f p) : Chain f' (xs ++ [a, z]) := by
  rw [Chain.append] at h ⊢
  exact ⟨h.1.congr (by simpa using e), h1, trivial⟩

/-- First and last pointer of a circular list with sentinel `h` and nodes `ps`. -/
def firstOf (h : Ptr) (ps : List Ptr) : Ptr := (ps ++ [h]).head (by simp)
def lastOf (h : Ptr) (ps : List Ptr) : Ptr := (h :: ps).getLast (by simp)

theorem first_split (h : Ptr) (ps : List Ptr) : ∃ t, ps ++ [h] = firstOf h ps :: t ∧
    (firstOf h ps :: t).dropLast = ps := by
  cases ps with
  | nil => exact ⟨[], rfl, rfl⟩
  | cons p ps => exact ⟨ps ++ [h], rfl, by
    show (p :: (ps ++ [h])).dropLast = _
    rw [← List.cons_append, List.dropLast_concat]⟩

theorem last_split (h : Ptr) (ps : List Ptr) : ∃ xs, h :: ps = xs ++ [lastOf h ps] :=
  ⟨(h :: ps).dropLast, (List.dropLast_concat_getLast _).symm⟩

theorem firstOf_reverse (h : Ptr) (ps : List Ptr) : firstOf h ps.reverse = lastOf h ps := by
  unfold firstOf lastOf
  have : ps.reverse ++ [h] = (h :: ps).reverse := by simp
  simp only [this, List.head_reverse]

theorem firstOf_mem (h : Ptr) (ps : List Ptr) : firstOf h ps = h ∨ firstOf h ps ∈ ps := by
  cases ps with
  | nil => exact Or.inl rfl
  | cons p ps => exact Or.inr (by simp [firstOf])

theorem lastOf_mem (h : Ptr) (ps : List Ptr) : lastOf h ps ∈ h :: ps := List.getLast_mem _

/-- The nodes `ps` and the sentinel `h` form a circle along `f`. -/
abbrev Circle (f : Ptr → Option Ptr) (h : Ptr) (ps : List Ptr) : Prop := Chain f (h :: ps ++ [h])

theorem Circle.first {f : Ptr → Option Ptr} {h : Ptr} {ps : List Ptr} (hc : Circle f h ps) :
    f h = some (firstOf h ps) := by
  cases ps with
  | nil => exact hc.1
  | cons p ps => exact hc.1

theorem Circle.congr {f f' : Ptr → Option Ptr} {h : Ptr} {ps : List Ptr} (hc : Circle f h ps)
    (e : ∀ p ∈ h :: ps, f' p = f p) : Circle f' h ps :=
  Chain.congr hc (by rw [List.dropLast_concat]; exact e)

/-- Every member of a circle has a successor in it. -/
theorem Circle.succ {f : Ptr → Option Ptr} {h : Ptr} {ps : List Ptr} (hc : Circle f h ps) {p : Ptr}
    (hp : p ∈ h :: ps) : ∃ q, f p = some q ∧ q ∈ h :: ps := by
  have key : ∀ l : List Ptr, Chain f l → ∀ p ∈ l.dropLast, ∃ q, f p = some q ∧ q ∈ l := by
    intro l
    induction l with
    | nil => intro _ p hp; simp at hp
    | cons a l ih =>
      cases l with
      | nil => intro _ p hp; simp at hp
      | cons b t =>
        intro hl p hp
        rw [List.dropLast_cons_cons] at hp
        rcases List.mem_cons.1 hp with rfl | hp
        · exact ⟨b, hl.1, by simp⟩
        · obtain ⟨q, h1, h2⟩ := ih hl.2 p hp
          exact ⟨q, h1, List.mem_cons_of_mem _ h2⟩
  obtain ⟨q, h1, h2⟩ := key _ hc p (by rw [List.dropLast_concat]; exact hp)
  exact ⟨q, h1, by simp at h2 ⊢; rcases h2 with h | h | h <;> simp [h]⟩

theorem Circle.insertFront {f f' : Ptr → Option Ptr} {h c : Ptr} {ps : List Ptr} (hc : Circle f h ps)
    (h1 : f' h = some c) (h2 : f' c = some (firstOf h ps)) (e : ∀ p ∈ ps, f' p = f p) :
    Circle f' h (c :: ps) := by
  obtain ⟨t, e1, e2⟩ := first_split h ps
  unfold Circle at hc ⊢
  simp only [List.cons_append] at hc ⊢
  rw [e1] at hc ⊢
  exact hc.insertHead h1 h2 (by rw [e2]; exact e)

theorem Circle.insertBack {f f' : Ptr → Option Ptr} {h c : Ptr} {ps : List Ptr} (hc : Circle f h ps)
    (h1 : f' (lastOf h ps) = some c) (h2 : f' c = some h)
    (hn : (h :: ps).Nodup)
    (e : ∀ p ∈ h :: ps, p ≠ lastOf h ps → f' p = f p) : Circle f' h (ps ++ [c]) := by
  obtain ⟨xs, e1⟩ := last_split h ps
  unfold Circle at hc ⊢
  rw [← List.cons_append, List.append_assoc]
  rw [e1] at hc hn ⊢
  rw [e1] at e
  simp only [List.append_assoc, List.cons_append, List.nil_append] at hc ⊢
  refine hc.insertLast h1 h2 fun p hp => e p (by simp [hp]) ?_
  rw [List.nodup_append] at hn
  exact hn.2.2 p hp _ (by simp)

theorem Circle.deleteFront {f f' : Ptr → Option Ptr} {h c : Ptr} {ps : List Ptr}
    (hc : Circle f h (c :: ps)) (h1 : f' h = some (firstOf h ps))
    (e : ∀ p ∈ ps, f' p = f p) : Circle f' h ps := by
  obtain ⟨t, e1, e2⟩ := first_split h ps
  unfold Circle at hc ⊢
  simp only [List.cons_append] at hc ⊢
  rw [e1] at hc ⊢
  exact hc.deleteHead h1 (by rw [e2]; exact e)

theorem Circle.deleteBack {f f' : Ptr → Option Ptr} {h c : Ptr} {ps : List Ptr}
    (hc : Circle f h (ps ++ [c])) (hn : (h :: ps).Nodup)
    (h1 : f' (lastOf h ps) = some h)
    (e : ∀ p ∈ h :: ps, p ≠ lastOf h ps → f' p = f p) : Circle f' h ps := by
  obtain ⟨xs, e1⟩ := last_split h ps
  unfold Circle at hc ⊢
  rw [← List.cons_append, List.append_assoc] at hc
  rw [e1] at hc hn ⊢
  rw [e1] at e
  simp only [List.append_assoc, List.cons_append, List.nil_append] at hc ⊢
  refine hc.deleteLast h1 fun p hp => e p (by simp [hp]) ?_
  rw [List.nodup_append] at hn
  exact hn.2.2 p hp _ (by simp)

/-! ## Views of memory -/

/-- `p->next`, if there is a node at `p`. -/
def nx (m : Mem α) (p : Ptr) : Option Ptr := ((m.cell p).bind id).map (·.next)
def pv (m : Mem α) (p : Ptr) : Option Ptr := ((m.cell p).bind id).map (·.prev)
def dt (m : Mem α) (p : Ptr) : Option α := ((m.cell p).bind id).bind (·.data)

/-- There is a node at `p`. -/
def Live (m : Mem α) (p : Ptr) : Prop := p ≠ .null ∧ ∃ c, m.cell p = some (some c)

/-- Status of a cell: unallocated, raw (`some false`), constructed (`some true`). -/
def st (m : Mem α) (p : Ptr) : Option Bool := (m.cell p).map Option.isSome

theorem live_iff {m : Mem α} {p : Ptr} : Live m p ↔ p ≠ .null ∧ st m p = some true := by
  unfold Live st
  rcases h : m.cell p with _ | _ | c <;> simp

theorem live_of_nx {m : Mem α} {p q : Ptr} (h0 : p ≠ .null) (h : nx m p = some q) : Live m p := by
  refine ⟨h0, ?_⟩
  unfold nx at h
  rcases e : m.cell p with _ | _ | c
  · simp [e] at h
  · simp [e] at h
  · exact ⟨c, rfl⟩

theorem get_ok {m : Mem α} {p : Ptr} (h : Live m p) : ∃ c, Returns (get p) m c m ∧
    nx m p = some c.next ∧ pv m p = some c.prev ∧ dt m p = c.data ∧ m.cell p = some (some c) := by
  obtain ⟨h0, c, hc⟩ := h
  exact ⟨c, by unfold Returns get; rw [if_neg h0, hc], by simp [nx, hc], by simp [pv, hc],
    by simp [dt, hc], hc⟩

theorem getNext_ok {m : Mem α} {p q : Ptr} (h : Live m p) (e : nx m p = some q) :
    Returns (getNext p) m q m := by
  obtain ⟨c, h1, h2, _⟩ := get_ok h
  unfold getNext Returns
  rw [bind_returns h1]
  rw [h2] at e; cases e; rfl

theorem getPrev_ok {m : Mem α} {p q : Ptr} (h : Live m p) (e : pv m p = some q) :
    Returns (getPrev p) m q m := by
  obtain ⟨c, h1, _, h2, _⟩ := get_ok h
  unfold getPrev Returns
  rw [bind_returns h1]
  rw [h2] at e; cases e; rfl

theorem getData_ok {m : Mem α} {p : Ptr} {x : α} (h : Live m p) (e : dt m p = some x) :
    Returns (getData p) m x m := by
  obtain ⟨c, h1, _, _, h2, _⟩ := get_ok h
  unfold getData Returns
  rw [bind_returns h1]
  rw [h2] at e
  simp only [e]; rfl

/-- `m'` differs from `m` at most in the contents of nodes. -/
structure Same (m m' : Mem α) : Prop where
  st : ∀ p, st m' p = st m p
  next : m'.next = m.next
  sz : m'.sz = m.sz
  tail : m'.tail = m.tail
  lost : m'.lost = m.lost

theorem Same.trans {m m1 m2 : Mem α} (h : Same m m1) (h' : Same m1 m2) : Same m m2 :=
  ⟨fun p => (h'.st p).trans (h.st p), h'.next.trans h.next, h'.sz.trans h.sz, h'.tail.trans h.tail,
    h'.lost.trans h.lost⟩

theorem Same.refl (m : Mem α) : Same m m := ⟨fun _ => rfl, rfl, rfl, rfl, rfl⟩

theorem Same.live {m m' : Mem α} (h : Same m m') {p : Ptr} (hl : Live m p) : Live m' p := by
  rw [live_iff] at hl ⊢
  exact ⟨hl.1, by rw [h.st]; exact hl.2⟩

theorem Same.upd (m : Mem α) (p : Ptr) (f : Cell α → Cell α) : Same m (m.upd p f) := by
  refine ⟨fun x => ?_, rfl, rfl, rfl, rfl⟩
  unfold LL.st Mem.upd
  by_cases h : x = p
  · simp only [h, if_true]; rcases m.cell p with _ | _ | c <;> rfl
  · simp only [h, if_false]

theorem setNext_ok {m : Mem α} {p q : Ptr} (h : Live m p) :
    wp (setNext p q) (fun _ m' => Same m m' ∧ (∀ x, nx m' x = if x = p then some q else nx m x) ∧
      (∀ x, pv m' x = pv m x) ∧ (∀ x, dt m' x = dt m x) ∧ (∀ x, x ≠ p → m'.cell x = m.cell x)) m := by
  obtain ⟨c, h1, h2, _, _, hc⟩ := get_ok h
  unfold setNext
  rw [wp_bind, wp_of_returns h1, wp_modify]
  refine ⟨Same.upd _ _ _, fun x => ?_, fun x => ?_, fun x => ?_, fun x hx => by simp [Mem.upd, hx]⟩ <;>
  · by_cases hx : x = p
    · subst hx; simp [nx, pv, dt, Mem.upd, hc]
    · simp [nx, pv, dt, Mem.upd, hx]

theorem setPrev_ok {m : Mem α} {p q : Ptr} (h : Live m p) :
    wp (setPrev p q) (fun _ m' => Same m m' ∧ (∀ x, pv m' x = if x = p then some q else pv m x) ∧
      (∀ x, nx m' x = nx m x) ∧ (∀ x, dt m' x = dt m x) ∧ (∀ x, x ≠ p → m'.cell x = m.cell x)) m := by
  obtain ⟨c, h1, h2, _, _, hc⟩ := get_ok h
  unfold setPrev
  rw [wp_bind, wp_of_returns h1, wp_modify]
  refine ⟨Same.upd _ _ _, fun x => ?_, fun x => ?_, fun x => ?_, fun x hx => by simp [Mem.upd, hx]⟩ <;>
  · by_cases hx : x = p
    · subst hx; simp [nx, pv, dt, Mem.upd, hc]
    · simp [nx, pv, dt, Mem.upd, hx]

theorem setData_ok {m : Mem α} {p : Ptr} {v : α} (h : Live m p) :
    wp (setData p v) (fun _ m' => Same m m' ∧ (∀ x, dt m' x = if x = p then some v else dt m x) ∧
      (∀ x, nx m' x = nx m x) ∧ (∀ x, pv m' x = pv m x) ∧ (∀ x, x ≠ p → m'.cell x = m.cell x)) m := by
  obtain ⟨c, h1, h2, _, _, hc⟩ := get_ok h
  unfold setData
  rw [wp_bind, wp_of_returns h1, wp_modify]
  refine ⟨Same.upd _ _ _, fun x => ?_, fun x => ?_, fun x => ?_, fun x hx => by simp [Mem.upd, hx]⟩ <;>
  · by_cases hx : x = p
    · subst hx; simp [nx, pv, dt, Mem.upd, hc]
    · simp [nx, pv, dt, Mem.upd, hx]

/-- What `Link::add` does: `c` is put between `a` and its successor `b`. -/
theorem linkAdd_ok {kd : Kind} {m : Mem α} {a b c : Ptr} (ha : Live m a) (hc : Live m c)
    (hb : Live m b) (hab : nx m a = some b) (hca : c ≠ a) :
    wp (linkAdd kd a c) (fun _ m' => Same m m' ∧
      (∀ x, nx m' x = if x = a then some c else if x = c then some b else nx m x) ∧
      (kd = .doubly → ∀ x, pv m' x = if x = b then some c else if x = c then some a else pv m x) ∧
      (∀ x, dt m' x = dt m x) ∧ (∀ x, x ≠ a → x ≠ b → x ≠ c → m'.cell x = m.cell x)) m := by
  cases kd with
  | singly =>
    unfold linkAdd
    simp only
    rw [wp_bind, wp_of_returns (getNext_ok ha hab), wp_bind]
    refine wp_mono (setNext_ok hc) ?_
    rintro _ m1 ⟨s1, n1, p1, d1, c1⟩
    refine wp_mono (setNext_ok (s1.live ha)) ?_
    rintro _ m2 ⟨s2, n2, p2, d2, c2⟩
    refine ⟨s1.trans s2, fun x => ?_, fun h => (by cases h), fun x => by rw [d2, d1],
      fun x h1 _ h3 => by rw [c2 x h1, c1 x h3]⟩
    rw [n2]; simp only [n1]
  | doubly =>
    unfold linkAdd
    simp only
    rw [wp_bind, wp_of_returns (getNext_ok ha hab), wp_bind]
    refine wp_mono (setNext_ok hc) ?_
    rintro _ m1 ⟨s1, n1, p1, d1, c1⟩
    rw [wp_bind]
    refine wp_mono (setPrev_ok (s1.live hc)) ?_
    rintro _ m2 ⟨s2, p2, n2, d2, c2⟩
    have hab2 : nx m2 a = some b := by rw [n2, n1, if_neg (Ne.symm hca)]; exact hab
    rw [wp_bind, wp_of_returns (getNext_ok (s2.live (s1.live ha)) hab2), wp_bind, wp_when]
    refine ⟨fun _ => ?_, fun h => absurd hb.1 (by simpa using h)⟩
    refine wp_mono (setPrev_ok (s2.live (s1.live hb))) ?_
    rintro _ m3 ⟨s3, p3, n3, d3, c3⟩
    refine wp_mono (setNext_ok (s3.live (s2.live (s1.live ha)))) ?_
    rintro _ m4 ⟨s4, n4, p4, d4, c4⟩
    refine ⟨s1.trans (s2.trans (s3.trans s4)), fun x => ?_, fun _ x => ?_, fun x => by rw [d4, d3, d2, d1],
      fun x h1 h2 h3 => by rw [c4 x h1, c3 x h2, c2 x h3, c1 x h3]⟩
    · rw [n4, n3, n2, n1]
    · rw [p4, p3, p2, p1]

/-- What `Link::del` does: `c`, which is between `a` and `b`, is taken out. -/
theorem linkDel_ok {kd : Kind} {m : Mem α} {a b c : Ptr} (ha : Live m a) (hc : Live m c)
    (hb : Live m b) (hcb : nx m c = some b) (hca : c ≠ a) :
    wp (linkDel kd a c) (fun _ m' => Same m m' ∧
      (∀ x, x ≠ c → nx m' x = if x = a then some b else nx m x) ∧
      (kd = .doubly → ∀ x, x ≠ c → pv m' x = if x = b then some a else pv m x) ∧
      (∀ x, dt m' x = dt m x) ∧ (∀ x, x ≠ a → x ≠ b → x ≠ c → m'.cell x = m.cell x)) m := by
  cases kd with
  | singly =>
    unfold linkDel
    simp only
    rw [wp_bind, wp_of_returns (getNext_ok hc hcb), wp_bind]
    refine wp_mono (setNext_ok ha) ?_
    rintro _ m1 ⟨s1, n1, p1, d1, c1⟩
    refine wp_mono (setNext_ok (s1.live hc)) ?_
    rintro _ m2 ⟨s2, n2, p2, d2, c2⟩
    refine ⟨s1.trans s2, fun x hx => ?_, fun h => (by cases h), fun x => by rw [d2, d1],
      fun x h1 _ h3 => by rw [c2 x h3, c1 x h1]⟩
    rw [n2, if_neg hx, n1]
  | doubly =>
    unfold linkDel
    simp only
    rw [wp_bind, wp_of_returns (getNext_ok hc hcb), wp_bind]
    refine wp_mono (setNext_ok ha) ?_
    rintro _ m1 ⟨s1, n1, p1, d1, c1⟩
    have hcb1 : nx m1 c = some b := by rw [n1, if_neg hca]; exact hcb
    rw [wp_bind, wp_of_returns (getNext_ok (s1.live hc) hcb1), wp_bind, wp_when]
    refine ⟨fun _ => ?_, fun h => absurd hb.1 (by simpa using h)⟩
    refine wp_mono (setPrev_ok (s1.live hb)) ?_
    rintro _ m2 ⟨s2, p2, n2, d2, c2⟩
    rw [wp_bind]
    refine wp_mono (setNext_ok (s2.live (s1.live hc))) ?_
    rintro _ m3 ⟨s3, n3, p3, d3, c3⟩
    refine wp_mono (setPrev_ok (s3.live (s2.live (s1.live hc)))) ?_
    rintro _ m4 ⟨s4, p4, n4, d4, c4⟩
    refine ⟨s1.trans (s2.trans (s3.trans s4)), fun x hx => ?_, fun _ x hx => ?_,
      fun x => by rw [d4, d3, d2, d1], fun x h1 h2 h3 => by rw [c4 x h3, c3 x h3, c2 x h2, c1 x h1]⟩
    · rw [n4, n3, if_neg hx, n2, n1]
    · rw [p4, if_neg hx, p3, p2, p1]

end Verif.LL
