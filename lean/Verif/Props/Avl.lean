import Verif.Proof.AvlDel
import Mathlib.Data.Nat.Fib.Basic

/-!
# The AVL tree: `Tree.insert`, `Tree.delete`, `Tree.find`, `Tree.get_leaves` (tree.py)
-/

namespace Foronoi

open scoped List

variable {D K : Type} [LinearOrder K]

theorem Wp.run {σ α : Type} {m : EM σ α} {s : σ} {Q : α → σ → Prop} (h : Wp (fun _ => False) m s Q) : ∃ a s', m s = .ok (a, s') ∧ Q a s' := by
  cases he : m s with
  | error e => exact (Wp.err h he).elim
  | ok v => exact ⟨v.1, v.2, rfl, Wp.ok h he⟩

theorem run_bind {σ α β : Type} {m : EM σ α} {f : α → EM σ β} {s s1 : σ} {a : α} {o : Except Err (β × σ)} (h : m s = .ok (a, s1)) (h' : f a s1 = o) :
    (m >>= f) s = o := by
  rw [← h']; simp only [bind, StateT.bind, Except.bind, h]

/-- An AVL tree with root `root`, in the store: pointers and cached heights agree, keys increase from left to right, balanced everywhere. -/
structure IsAvl (key : D → K) (s : NS D) (root : Option Nat) (t : BT D) : Prop where
  root_eq : root = t.root
  holds : Holds s.n none t
  nodup : t.ids.Nodup
  lt : ∀ j ∈ t.ids, j < s.cnt
  sorted : (t.items.map key).Pairwise (· < ·)
  balanced : t.Balanced

theorem insert_core {key : D → K} {hf k : Nat} {e : D} {t : BT D} {s : NS D} (h : Holds s.n none t) (hnd : t.ids.Nodup)
    (hlt : ∀ j ∈ t.ids, j < s.cnt) (hg : GoodIns key k e t) (hk : s.n k = ⟨e, none, none, none, none⟩) (hk' : k < s.cnt) (hkt : k ∉ t.ids)
    (hf' : t.ids.length < hf) : ∃ r s', insertT key hf k hf t.root s = .ok (r, s') ∧ (BT.ins key k e t).root = some r ∧ s'.cnt = s.cnt ∧
      Holds s'.n none (BT.ins key k e t) ∧ (BT.ins key k e t).ids.Nodup ∧ (∀ j ∈ (BT.ins key k e t).ids, j < s'.cnt) ∧
      ∀ j, j ∉ (BT.ins key k e t).ids → s'.n j = s.n j := by
  have hperm := BT.ids_ins key k e t
  obtain ⟨r, s', he, h1, h2, ⟨p', h3, h4⟩, h5⟩ := Wp.run (wp_insertT (E := fun _ => False) (key := key) (k := k) (e := e) (hf := hf) (side := true) h hnd
    (by intro g hg; simp at hg) hg (by rw [hk]) (by rw [hk]) (by rw [hk]) (by rw [hk]; simp) hkt (by simp)
    (lt_of_le_of_lt t.depth_le hf') hf')
  refine ⟨r, s', he, h1, h2, ?_, hperm.nodup_iff.mpr (List.nodup_cons.mpr ⟨hkt, hnd⟩), fun j hj => ?_, fun j hj => ?_⟩
  · cases t with
    | node i d l r => rw [h4 (by simp [BT.root])] at h3; exact h3
    | nil =>
      simp only [BT.root] at he
      obtain ⟨f, rfl⟩ : ∃ f, hf = f + 1 := ⟨hf - 1, by omega⟩
      have : s' = s := by
        simp only [insertT] at he
        cases he; rfl
      subst this
      refine ⟨by rw [hk], by rw [hk]; rfl, by rw [hk]; rfl, by rw [hk], Or.inl (by rw [hk]), trivial, trivial⟩
  · rw [h2]
    rcases List.mem_cons.mp (hperm.mem_iff.mp hj) with rfl | hj
    · exact hk'
    · exact hlt j hj
  · exact h5.1 j (fun hm => hj (hperm.mem_iff.mpr hm)) (by simp)

/-- C17, one step: inserting a new key. -/
theorem C17_insert {key : D → K} {hf k : Nat} {e : D} {t : BT D} {s : NS D} {root : Option Nat} (h : IsAvl key s root t)
    (hk : s.n k = ⟨e, none, none, none, none⟩) (hk' : k < s.cnt) (hkt : k ∉ t.ids) (hnew : key e ∉ t.items.map key) (hf' : t.ids.length < hf) :
    ∃ r s' t', insertT key hf k hf root s = .ok (r, s') ∧ IsAvl key s' (some r) t' ∧ t'.items ~ e :: t.items ∧ t'.ids ~ k :: t.ids ∧
      (∀ j, j ∉ t'.ids → s'.n j = s.n j) := by
  obtain ⟨rfl, h1, h2, h3, h4, h5⟩ := h
  obtain ⟨r, s', he, g1, g2, g3, g4, g5, g6⟩ := insert_core h1 h2 h3 (goodIns_of_balanced (k := k) h5 hnew) hk hk' hkt hf'
  exact ⟨r, s', BT.ins key k e t, he, ⟨g1.symm, g3, g4, g5, BT.sorted_ins k h4 hnew, (BT.ins_balanced k h5 hnew).1⟩,
    BT.items_ins key k e t, BT.ids_ins key k e t, g6⟩

theorem seq_core {key : D → K} {hf : Nat} : ∀ {ds : List D} {t : BT D} {s : NS D} {root : Option Nat}, IsAvl key s root t →
    (ds.map key).Nodup → (∀ d ∈ ds, key d ∉ t.items.map key) → t.ids.length + ds.length ≤ hf →
    ∃ r s' t', insertSeq key hf ds root s = .ok (r, s') ∧ IsAvl key s' r t' ∧ t'.items ~ ds ++ t.items
  | [], t, s, root, h, _, _, _ => ⟨root, s, t, rfl, h, .refl _⟩
  | d :: ds, t, s, root, h, hn, hnew, hl => by
    simp only [List.map_cons, List.nodup_cons, List.length_cons] at hn hl
    set s1 : NS D := { n := Function.update s.n s.cnt ⟨d, none, none, none, none⟩, cnt := s.cnt + 1 } with hs1
    have hfresh : s.cnt ∉ t.ids := fun hm => absurd (h.lt _ hm) (lt_irrefl _)
    have h1 : IsAvl key s1 root t := ⟨h.root_eq, h.holds.congr (fun j hj => by
      show Function.update s.n s.cnt _ j = _
      rw [Function.update_of_ne (by rintro rfl; exact hfresh hj)]), h.nodup, fun j hj => Nat.lt_succ_of_lt (h.lt j hj), h.sorted, h.balanced⟩
    obtain ⟨r, s2, t2, e2, h2, p2, -, -⟩ := C17_insert (hf := hf) (k := s.cnt) (e := d) h1 (by simp [hs1]) (by simp [hs1]) hfresh
      (hnew d (by simp)) (by omega)
    have hlen : t2.ids.length = t.ids.length + 1 := by
      have e1 : ∀ u : BT D, u.ids.length = u.items.length := by
        intro u; induction u with
        | nil => rfl
        | node i d l r hl hr => simp [BT.ids, BT.items, hl, hr]
      rw [e1, e1, p2.length_eq]; rfl
    obtain ⟨r', s', t', e3, h3, p3⟩ := seq_core (hf := hf) (ds := ds) h2 hn.2 (fun d' hd' hm => by
      have hm' := (p2.map key).mem_iff.mp hm
      simp only [List.map_cons, List.mem_cons] at hm'
      rcases hm' with hm' | hm'
      · exact hn.1 (hm' ▸ List.mem_map_of_mem hd')
      · exact hnew d' (by simp [hd']) hm') (by omega)
    refine ⟨r', s', t', ?_, h3, p3.trans ?_⟩
    · simp only [insertSeq]
      refine run_bind rfl ?_
      exact run_bind e2 e3
    · refine (p2.append_left ds).trans ?_
      exact List.perm_middle

/-- C17: inserting any sequence of distinct keys into an empty tree gives a search tree with these keys, balanced at every node, with
right pointers and heights.  `s` is any store (there may be other nodes). -/
theorem C17_sequence {key : D → K} {hf : Nat} {ds : List D} (s : NS D) (hd : (ds.map key).Nodup) (hf' : ds.length ≤ hf) :
    ∃ r s' t, insertSeq key hf ds none s = .ok (r, s') ∧ IsAvl key s' r t ∧ t.items ~ ds := by
  obtain ⟨r, s', t, h1, h2, h3⟩ := seq_core (key := key) (hf := hf) (ds := ds) (t := .nil) (s := s) (root := none)
    ⟨rfl, trivial, by simp [BT.ids], by simp [BT.ids], by simp [BT.items], trivial⟩ hd (by simp [BT.items]) (by simpa [BT.ids] using hf')
  exact ⟨r, s', t, h1, h2, by simpa [BT.items] using h3⟩

/-- A balanced tree of depth `h` has at least `fib (h + 2) - 1` nodes: the depth is logarithmic in the number of keys. -/
theorem C17_depth {t : BT D} (h : t.Balanced) : Nat.fib (t.depth + 2) ≤ t.items.length + 1 := by
  induction t with
  | nil => simp [BT.depth]
  | node i d l r hl hr =>
    obtain ⟨h1, h2, h3, h4⟩ := h
    have il := hl h3
    have ir := hr h4
    simp only [BT.depth, BT.items, List.length_append, List.length_cons]
    rcases le_total l.depth r.depth with hle | hle
    · rw [max_eq_right hle, show 1 + r.depth + 2 = (r.depth + 1) + 2 from by omega, Nat.fib_add_two, show r.depth + 1 + 1 = r.depth + 2 from rfl]
      have : Nat.fib (r.depth + 1) ≤ Nat.fib (l.depth + 2) := Nat.fib_mono (by omega)
      omega
    · rw [max_eq_left hle, show 1 + l.depth + 2 = (l.depth + 1) + 2 from by omega, Nat.fib_add_two, show l.depth + 1 + 1 = l.depth + 2 from rfl]
      have : Nat.fib (l.depth + 1) ≤ Nat.fib (r.depth + 2) := Nat.fib_mono (by omega)
      omega

/-- An empty store. -/
def noNodes : NS Nat := ⟨fun _ => ⟨0, none, none, none, none⟩, 0⟩

/-- Non-vacuity: seven keys in an order that needs all four rotations. -/
example : ∃ r s' t, insertSeq (id : Nat → Nat) 7 [4, 2, 3, 6, 5, 1, 0] none noNodes = .ok (r, s') ∧ IsAvl id s' r t ∧ t.items ~ [4, 2, 3, 6, 5, 1, 0] :=
  C17_sequence noNodes (by decide) (by decide)

/-- No node has a left child. -/
def RightPath : BT D → Prop
  | .nil => True
  | .node _ _ l r => l = .nil ∧ RightPath r

/-- Equal keys: each goes below the previous one, and no case applies. -/
theorem ins_equal {key : D → K} {k : Nat} {e : D} : ∀ {t : BT D}, (∀ d ∈ t.items, key d = key e) → RightPath t →
    GoodIns key k e t ∧ (BT.ins key k e t).depth = t.depth + 1 ∧ RightPath (BT.ins key k e t)
  | .nil, _, _ => ⟨trivial, rfl, rfl, trivial⟩
  | .node i d l r, h, hp => by
    obtain ⟨rfl, hp⟩ := hp
    have hr : ∀ d ∈ r.items, key d = key e := fun d' hd' => h d' (by simp [BT.items, hd'])
    obtain ⟨g1, g2, g3⟩ := ins_equal (k := k) (t := r) hr hp
    have hde : key d = key e := h d (by simp [BT.items])
    have hk : ∀ d' ∈ (BT.ins key k e r).items, key d' = key e := by
      intro d' hd'
      rcases List.mem_cons.mp ((BT.items_ins key k e r).mem_iff.mp hd') with rfl | hd'
      · rfl
      · exact hr d' hd'
    have hroot : BT.rootKey key (key e) (BT.ins key k e r) = key e := by
      cases hi : BT.ins key k e r with
      | nil => rfl
      | node j d' a b => exact hk d' (by rw [hi]; simp [BT.items])
    have hfix : BT.ins key k e (.node i d .nil r) = .node i d .nil (BT.ins key k e r) := by
      simp only [BT.ins]
      rw [if_neg (by rw [hde]; exact lt_irrefl _)]
      have hn : BT.rootKey key (key e) (BT.nil : BT D) = key e := rfl
      simp only [BT.fixIns, hn, hroot, lt_irrefl, and_false, if_false]
    refine ⟨?_, ?_, ?_⟩
    · simp only [GoodIns]
      rw [if_neg (by rw [hde]; exact lt_irrefl _)]
      exact ⟨g1, fun _ hc => by simp [BT.rootKey] at hc, fun _ hc => by rw [hroot] at hc; exact absurd hc (lt_irrefl _)⟩
    · rw [hfix]; simp only [BT.depth]; omega
    · rw [hfix]; exact ⟨rfl, g3⟩

/-- Inserting `n` equal keys into an empty tree gives a path: depth `n`. -/
theorem C53_equal_keys {key : D → K} {hf : Nat} {a : K} : ∀ {ds : List D} (s : NS D), (∀ d ∈ ds, key d = a) → ds.length ≤ hf →
    ∃ r s' t, insertSeq key hf ds none s = .ok (r, s') ∧ r = t.root ∧ Holds s'.n none t ∧ t.items.length = ds.length ∧ t.depth = ds.length := by
  suffices h : ∀ (ds : List D) (t : BT D) (s : NS D), Holds s.n none t → t.ids.Nodup → (∀ j ∈ t.ids, j < s.cnt) → (∀ d ∈ t.items, key d = a) →
      RightPath t → (∀ d ∈ ds, key d = a) → t.ids.length + ds.length ≤ hf →
      ∃ r s' t', insertSeq key hf ds t.root s = .ok (r, s') ∧ r = t'.root ∧ Holds s'.n none t' ∧ t'.items.length = ds.length + t.items.length ∧
        t'.depth = ds.length + t.depth by
    intro ds s hd hl
    obtain ⟨r, s', t, h1, h2, h3, h4, h5⟩ := h ds .nil s trivial (by simp [BT.ids]) (by simp [BT.ids]) (by simp [BT.items]) trivial hd
      (by simpa [BT.ids] using hl)
    exact ⟨r, s', t, h1, h2, h3, by simpa [BT.items] using h4, by simpa [BT.depth] using h5⟩
  intro ds
  induction ds with
  | nil => intro t s h1 h2 h3 h4 h5 h7 h8; exact ⟨t.root, s, t, rfl, rfl, h1, by simp, by simp⟩
  | cons d ds ih =>
    intro t s h1 h2 h3 h4 h5 h7 h8
    simp only [List.length_cons] at h8
    have hda : key d = a := h7 d (by simp)
    set s1 : NS D := { n := Function.update s.n s.cnt ⟨d, none, none, none, none⟩, cnt := s.cnt + 1 } with hs1
    have hfresh : s.cnt ∉ t.ids := fun hm => absurd (h3 _ hm) (lt_irrefl _)
    obtain ⟨g1, g2, g3⟩ := ins_equal (key := key) (k := s.cnt) (e := d) (t := t) (fun d' hd' => by rw [h4 d' hd', hda]) h5
    obtain ⟨r, s2, e2, q1, q2, q3, q4, q5, -⟩ := insert_core (hf := hf) (s := s1) (k := s.cnt) (e := d) (t := t)
      (h1.congr (fun j hj => by
        show Function.update s.n s.cnt _ j = _
        rw [Function.update_of_ne (by rintro rfl; exact hfresh hj)])) h2 (fun j hj => Nat.lt_succ_of_lt (h3 j hj)) g1 (by simp [hs1]) (by simp [hs1]) hfresh
      (by omega)
    have hit := BT.items_ins key s.cnt d t
    have hid := BT.ids_ins key s.cnt d t
    obtain ⟨r', s', t', e3, k1, k2, k3, k4⟩ := ih (BT.ins key s.cnt d t) s2 q3 q4 q5 (fun d' hd' => by
      rcases List.mem_cons.mp (hit.mem_iff.mp hd') with rfl | hd'
      · exact hda
      · exact h4 d' hd') g3 (fun d' hd' => h7 d' (by simp [hd'])) (by rw [hid.length_eq]; simp only [List.length_cons]; omega)
    refine ⟨r', s', t', ?_, k1, k2, ?_, ?_⟩
    · simp only [insertSeq]
      refine run_bind rfl ?_
      refine run_bind e2 ?_
      rw [← q1]; exact e3
    · rw [k3, hit.length_eq]; simp only [List.length_cons]; omega
    · rw [k4, g2]; simp only [List.length_cons]; omega

/-- Non-vacuity. -/
example : ∃ r s' t, insertSeq (id : Nat → Nat) 5 [1, 1, 1, 1, 1] none noNodes = .ok (r, s') ∧ r = t.root ∧ Holds s'.n none t ∧ t.items.length = 5 ∧ t.depth = 5 :=
  C53_equal_keys (a := 1) noNodes (by simp) (by decide)

/-- C18, the part that holds: if the node with the key (if there is one) has at most one child, exactly this key is removed, the tree
stays balanced, and the heights stay right.  Only the parent pointer of the new root may be wrong (`C52_stale_parent`). -/
theorem C18_delete_partial {key : D → K} {hf : Nat} {x : K} {t : BT D} {s : NS D} {root : Option Nat} (h : IsAvl key s root t) (hf' : t.ids.length < hf)
    (hx : ∀ d, key d = x → ¬ BT.TwoChildren d t) :
    ∃ r s' t' p, deleteT key hf x hf root s = .ok (r, s') ∧ r = t'.root ∧ Holds s'.n p t' ∧ t'.items = t.items.filter (fun d => decide (key d ≠ x)) ∧
      (t'.items.map key).Pairwise (· < ·) ∧ t'.Balanced ∧ (∀ j, j ∉ t.ids → s'.n j = s.n j) ∧
      (∀ i d l r, t = .node i d l r → key d ≠ x → p = none) := by
  obtain ⟨rfl, h1, h2, h3, h4, h5⟩ := h
  have hsome : BT.del key x t ≠ none := fun hn => by
    obtain ⟨d, hd, htc⟩ := (BT.del_none h4).mp hn
    exact hx d hd htc
  obtain ⟨r, s', he, t', g1, g2, g3, ⟨p', g4, g5⟩, g6⟩ := Wp.run (wp_deleteT (E := fun _ => False) (key := key) (x := x) (hf := hf) (side := true) h1 h2
    (by intro g hg; simp at hg) (lt_of_le_of_lt t.depth_le hf') hf'.le (fun hn => hsome hn))
  have hit := BT.del_items h4 g1
  refine ⟨r, s', t', p', he, g2, g4, hit, ?_, (BT.del_balanced h5 g1).1, fun j hj => g6.1 j hj (by simp), fun i d l r ht hk => (g5 i d l r ht).1 hk⟩
  rw [hit]
  exact h4.sublist (List.filter_sublist.map key)

/-- `Tree.delete` fails exactly for the keys whose node has two children, always with an AttributeError. -/
theorem C51_delete_raises {key : D → K} {hf : Nat} {x : K} {t : BT D} {s : NS D} {root : Option Nat} (h : IsAvl key s root t) (hf' : t.ids.length < hf) :
    ((∃ d, key d = x ∧ BT.TwoChildren d t) → deleteT key hf x hf root s = .error .attr) ∧
    (∀ e, deleteT key hf x hf root s = .error e → e = .attr ∧ ∃ d, key d = x ∧ BT.TwoChildren d t) := by
  obtain ⟨rfl, h1, h2, h3, h4, h5⟩ := h
  have hw := wp_deleteT (E := fun e => e = .attr ∧ BT.del key x t = none) (key := key) (x := x) (hf := hf) (side := true) h1 h2
    (by intro g hg; simp at hg) (lt_of_le_of_lt t.depth_le hf') hf'.le (fun hn => ⟨rfl, hn⟩)
  constructor
  · intro hx
    have hn := (BT.del_none h4).mpr hx
    cases he : deleteT key hf x hf t.root s with
    | error e => rw [(Wp.err hw he).1]
    | ok v =>
      unfold Wp at hw
      rw [he] at hw
      obtain ⟨t', ht', -⟩ := hw
      rw [hn] at ht'
      cases ht'
  · intro e he
    obtain ⟨g1, g2⟩ := Wp.err hw he
    exact ⟨g1, (BT.del_none h4).mp g2⟩

/-- Deleting the key of the root, if the root has one child: the new root still names the removed node as its parent. -/
theorem C52_stale_parent {key : D → K} {hf : Nat} {t : BT D} {s : NS D} {i c : Nat} {d : D} {l r : BT D} (h : IsAvl key s (some i) t) (hf' : t.ids.length < hf)
    (ht : t = .node i d l r) (hc : (l = .nil ∧ r.root = some c) ∨ (r = .nil ∧ l.root = some c)) :
    ∃ s', deleteT key hf (key d) hf (some i) s = .ok (some c, s') ∧ (s'.n c).parent = some i := by
  subst ht
  obtain ⟨h0, h1, h2, h3, h4, h5⟩ := h
  have hdel : ∃ t', BT.del key (key d) (.node i d l r) = some t' ∧ t'.root = some c := by
    simp only [BT.del, lt_irrefl, if_false]
    rcases hc with ⟨rfl, hc⟩ | ⟨rfl, hc⟩
    · exact ⟨r, rfl, hc⟩
    · cases l with
      | nil => simp [BT.root] at hc
      | node j e a b => exact ⟨_, rfl, hc⟩
  obtain ⟨t', hd', hr'⟩ := hdel
  obtain ⟨o, s', he, t'', g1, g2, g3, ⟨p', g4, g5⟩, g6⟩ := Wp.run (wp_deleteT (E := fun _ => False) (key := key) (x := key d) (hf := hf) (side := true) h1 h2
    (by intro g hg; simp at hg) (lt_of_le_of_lt (BT.depth_le _) hf') hf'.le (fun hn => by rw [hd'] at hn; cases hn))
  rw [hd'] at g1
  cases g1
  rw [hr'] at g2
  subst g2
  refine ⟨s', he, ?_⟩
  have hp := (g5 i d l r rfl).2 rfl
  cases t' with
  | nil => simp [BT.root] at hr'
  | node j e a b =>
    simp only [BT.root, Option.some.injEq] at hr'
    subst hr'
    rw [g4.2.2.2.1, hp]

/-- Non-vacuity of `C18_delete_partial` and `C51_delete_raises`: a tree with the keys 1, 2, 3. -/
def tree123 : BT Nat := .node 1 2 (.node 0 1 .nil .nil) (.node 2 3 .nil .nil)

def store123 : NS Nat := ⟨fun j => if j = 1 then ⟨2, some 0, some 2, none, some 2⟩ else if j = 0 then ⟨1, none, none, some 1, some 1⟩ else ⟨3, none, none, some 1, some 1⟩, 3⟩

theorem isAvl123 : IsAvl (id : Nat → Nat) store123 (some 1) tree123 :=
  ⟨rfl, by simp [tree123, Holds, store123, BT.root, BT.depth], by decide, by decide, by decide, by simp [tree123, BT.Balanced, BT.depth]⟩

example : deleteT (id : Nat → Nat) 4 2 4 (some 1) store123 = .error .attr :=
  (C51_delete_raises isAvl123 (by decide)).1 ⟨2, rfl, by simp [tree123, BT.TwoChildren, BT.root]⟩

example : ∃ r s' t' p, deleteT (id : Nat → Nat) 4 3 4 (some 1) store123 = .ok (r, s') ∧ r = BT.root t' ∧ Holds s'.n p t' ∧ t'.items = [1, 2] := by
  obtain ⟨r, s', t', p, h1, h2, h3, h4, -⟩ := C18_delete_partial (key := id) (x := 3) (hf := 4) isAvl123 (by decide) (by
    intro d hd
    simp only [id] at hd
    subst hd
    simp [tree123, BT.TwoChildren, BT.root])
  exact ⟨r, s', t', p, h1, h2, h3, h4⟩

/-- `Tree.find` returns a node with the key, and `None` only if the key is not in the tree. -/
theorem C54_find {key : D → K} {hf : Nat} {x : K} {t : BT D} {s : NS D} {root : Option Nat} (h : IsAvl key s root t) (hf' : t.ids.length < hf) :
    ∃ o, findKey key x hf root s = .ok (o, s) ∧ (∀ j, o = some j → j ∈ t.ids ∧ key (s.n j).data = x) ∧ (o = none → x ∉ t.items.map key) := by
  obtain ⟨rfl, h1, h2, h3, h4, h5⟩ := h
  obtain ⟨o, s', he, rfl, g1, g2⟩ := Wp.run (wp_findKey (E := fun _ => False) (key := key) (x := x) h1 h4 (lt_of_le_of_lt t.depth_le hf'))
  exact ⟨o, he, g1, g2⟩

/-- `Tree.get_leaves` lists the childless nodes, left to right. -/
theorem C54_leaves {hf i : Nat} {t : BT D} {s : NS D} {p : Option Nat} (h : Holds s.n p t) (hi : t.root = some i) (hf' : t.ids.length ≤ hf) :
    getLeaves hf i s = .ok (t.leaves, s) := by
  obtain ⟨o, s', he, rfl, rfl⟩ := Wp.run (wp_getLeaves (E := fun _ => False) h hi (t.depth_le.trans hf'))
  exact he

example : ∃ o, findKey (id : Nat → Nat) 3 4 (some 1) store123 = .ok (o, store123) ∧ (∀ j, o = some j → j ∈ tree123.ids ∧ id (store123.n j).data = 3) ∧
    (o = none → 3 ∉ tree123.items.map id) := C54_find isAvl123 (by decide)

example : getLeaves 3 1 store123 = .ok ([0, 2], store123) := C54_leaves (t := tree123) isAvl123.holds rfl (by decide)

end Foronoi
