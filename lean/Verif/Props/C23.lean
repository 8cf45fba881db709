import Verif.Lemmas.Source
import Verif.Spec.Codec

/-!
# C23 - The reachable forest is exactly what the root reaches
-/

namespace Backpak.C23

open Spec

variable {Id : Type} [LinearOrder Id] {C : Codec Id} {R : Repo Id} {src : Source Id}

/-! ## Termination, for any source whatever -/

theorem appendLoop_keys {H : Bytes → Id} {dec : Bytes → Option (Tree Id × Bytes)} (m : Manifest Id)
    (s : Stream) (f f' : Forest Id) (h : Pack.appendLoop H dec m s f = .ok f') (k : Id)
    (hk : k ∈ BMap.keys f') : k ∈ BMap.keys f ∨ k ∈ m.map Entry.id := by
  induction m generalizing s f with
  | nil =>
    simp only [Pack.appendLoop, Except.ok.injEq] at h
    subst h
    exact .inl hk
  | cons e m ih =>
    unfold Pack.appendLoop at h
    split at h
    · split at h
      · simp at h
      · split at h
        · rcases ih _ _ h with h | h
          · exact .inl h
          · exact .inr (by simp only [List.map_cons, List.mem_cons]; exact .inr h)
        · simp at h
    · split at h
      · simp at h
      · split at h
        · rcases ih _ _ h with h | h
          · rw [BMap.keys_insert_mem] at h
            rcases h with rfl | h
            · exact .inr (by simp)
            · exact .inl h
          · exact .inr (by simp only [List.map_cons, List.mem_cons]; exact .inr h)
        · simp at h

theorem treeRead_keys (hb : Index.blobToPack src.index = .ok src.blobMap) {cache cache' : Forest Id}
    {id : Id} {t : Tree Id} (h : treeRead C src cache id = .ok (t, cache')) :
    (id ∈ BMap.keys cache ∨ id ∈ BMap.keys src.blobMap) ∧
    ∀ k ∈ BMap.keys cache', k ∈ BMap.keys cache ∨ k ∈ BMap.keys src.blobMap := by
  unfold treeRead at h
  split at h
  · rename_i t' ht
    simp only [Except.ok.injEq, Prod.mk.injEq] at h
    obtain ⟨rfl, rfl⟩ := h
    exact ⟨.inl (BMap.mem_keys_iff.mpr ⟨_, ht⟩), fun k hk => .inl hk⟩
  · split at h
    · simp at h
    · rename_i p hp
      split at h
      · simp at h
      · split at h
        · simp at h
        · rename_i m hm
          split at h
          · simp at h
          · rename_i c2 hc2
            split at h
            · simp at h
            · simp only [Except.ok.injEq, Prod.mk.injEq] at h
              obtain ⟨_, rfl⟩ := h
              refine ⟨.inr (BMap.mem_keys_iff.mpr ⟨_, hp⟩), fun k hk => ?_⟩
              rcases appendLoop_keys _ _ _ _ hc2 k hk with h | h
              · exact .inl h
              · right
                obtain ⟨e, he, rfl⟩ := List.mem_map.mp h
                exact BMap.mem_keys_iff.mpr ⟨p, (C18.lookup_iff _ _ hb _ _).mpr
                  ⟨m, e, BMap.mem_of_get? hm, he, rfl⟩⟩

/-- The failure the model returns when it runs out of depth. -/
def overflow : Fail := .panic "stack overflow"

theorem forSubtrees_no_overflow (f : Id → Forest Id × Forest Id → Res (Forest Id × Forest Id))
    (P : Forest Id → Prop)
    (hf : ∀ id s, P s.2 → f id s ≠ .error overflow ∧ ∀ s', f id s = .ok s' → P s'.2)
    (t : Tree Id) (s : Forest Id × Forest Id) (hs : P s.2) :
    forSubtrees f t s ≠ .error overflow ∧ ∀ s', forSubtrees f t s = .ok s' → P s'.2 := by
  induction t generalizing s with
  | nil =>
    refine ⟨by simp [forSubtrees], fun s' h => ?_⟩
    simp only [forSubtrees, Except.ok.injEq] at h
    exact h ▸ hs
  | cons e t ih =>
    obtain ⟨n, c, md⟩ := e
    cases c with
    | file cs => exact ih s hs
    | link tg => exact ih s hs
    | dir sub =>
      obtain ⟨h1, h2⟩ := hf sub s hs
      unfold forSubtrees
      cases hfs : f sub s with
      | error e =>
        refine ⟨fun h => h1 (by rw [hfs]; simpa using h), by simp⟩
      | ok s' => exact ih s' (h2 s' hfs)

theorem treeRead_no_overflow {cache : Forest Id} {id : Id} (hr : ∀ p, src.read p ≠ .error overflow) :
    treeRead C src cache id ≠ .error overflow := by
  have hloop : ∀ (m : Manifest Id) (s : Stream) (f : Forest Id),
      Pack.appendLoop C.hash C.decTree m s f ≠ .error overflow := by
    intro m
    induction m with
    | nil => simp [Pack.appendLoop]
    | cons e m ih =>
      intro s f
      unfold Pack.appendLoop
      split
      · split
        · rename_i e' he
          intro h
          simp only [Except.error.injEq] at h
          subst h
          unfold Stream.take at he
          split at he
          · simp at he
          · split at he <;> simp [overflow] at he
        · split
          · exact ih _ _
          · simp [overflow]
      · split
        · rename_i e' he
          intro h
          simp only [Except.error.injEq] at h
          subst h
          unfold Stream.item at he
          split at he <;> simp [overflow] at he
        · split
          · exact ih _ _
          · simp [overflow]
  unfold treeRead
  split
  · simp
  · split
    · simp [overflow]
    · rename_i p _
      split
      · rename_i e he
        intro h
        simp only [Except.error.injEq] at h
        exact hr p (h ▸ he)
      · split
        · simp [overflow]
        · split
          · rename_i e he
            intro h
            simp only [Except.error.injEq] at h
            exact hloop _ _ _ (h ▸ he)
          · split <;> simp [overflow]

theorem appendTree_no_overflow (hb : Index.blobToPack src.index = .ok src.blobMap)
    (hr : ∀ p, src.read p ≠ .error overflow) (K : List Id) (hK : ∀ k ∈ BMap.keys src.blobMap, k ∈ K)
    (n : Nat) (stack : List Id) (hn : stack.Nodup) (hs : ∀ a ∈ stack, a ∈ K)
    (hlen : K.length + 1 ≤ n + stack.length) (id : Id) (s : Forest Id × Forest Id)
    (hc : ∀ k ∈ BMap.keys s.2, k ∈ K) :
    appendTree C src n stack id s ≠ .error overflow ∧
    ∀ s', appendTree C src n stack id s = .ok s' → ∀ k ∈ BMap.keys s'.2, k ∈ K := by
  induction n generalizing stack id s with
  | zero =>
    have := (List.subperm_of_subset hn hs).length_le
    omega
  | succ n ih =>
    obtain ⟨forest, cache⟩ := s
    unfold appendTree
    split
    · exact ⟨by simp [overflow], by simp⟩
    · rename_i hno
      split
      · rename_i e he
        refine ⟨fun h => ?_, by simp⟩
        simp only [Except.error.injEq] at h
        exact treeRead_no_overflow hr (h ▸ he)
      · rename_i t cache' ht
        obtain ⟨h1, h2⟩ := treeRead_keys hb ht
        have hid : id ∈ K := h1.elim (fun h => hc id h) (fun h => hK id h)
        exact forSubtrees_no_overflow _ (fun c => ∀ k ∈ BMap.keys c, k ∈ K)
          (fun id' s' hs' => ih (id :: stack) (List.nodup_cons.mpr ⟨hno, hn⟩) (by
              intro a ha
              rcases List.mem_cons.mp ha with rfl | ha
              · exact hid
              · exact hs a ha) (by simp only [List.length_cons]; omega) id' s' hs')
          t _ (fun k hk => (h2 k hk).elim (fun h => hc k h) (fun h => hK k h))

/-- Loading a forest always comes to an end: whatever the packs hold, however the trees in them
refer to each other and whatever has been cached, the recursion is never deeper than the number
of trees that can be looked up. -/
theorem never_overflows (hb : Index.blobToPack src.index = .ok src.blobMap)
    (hr : ∀ p, src.read p ≠ .error overflow) (root : Id) (cache : Forest Id) :
    forestFromRoot C src root cache ≠ .error overflow :=
  (appendTree_no_overflow hb hr (BMap.keys cache ++ BMap.keys src.blobMap) (by simp; tauto)
    _ [] (by simp) (by simp) (by simp [BMap.keys]; omega) root ([], cache) (by simp; tauto)).1

/-! ## Exactness, for a sound repository -/

/-- `f'` is `f` with the trees of the IDs in `S` added. -/
def Adds (C : Codec Id) (R : Repo Id) (S : Id → Prop) (f f' : Forest Id) : Prop :=
  ∀ k u, f'.get? k = some u ↔ (S k ∧ TreeAt C R k u) ∨ (¬ S k ∧ f.get? k = some u)

theorem add_both (A B P F : Prop) :
    (B ∧ P ∨ ¬ B ∧ (A ∧ P ∨ ¬ A ∧ F)) ↔ ((A ∨ B) ∧ P ∨ ¬ (A ∨ B) ∧ F) := by tauto

theorem appendTree_sound (hS : Sound C R) (ho : Opens R src) (n : Nat) (stack : List Id) (id : Id)
    (s s' : Forest Id × Forest Id) (hf : BMap.Sorted s.1) (hc : CacheOk C R s.2)
    (h : appendTree C src n stack id s = .ok s') :
    BMap.Sorted s'.1 ∧ CacheOk C R s'.2 ∧ Grounded (TreeAt C R) id ∧
      Adds C R (Reaches (TreeAt C R) id) s.1 s'.1 := by
  induction n generalizing stack id s s' with
  | zero => simp [appendTree] at h
  | succ n ih =>
    obtain ⟨forest, cache⟩ := s
    unfold appendTree at h
    split at h
    · simp at h
    · split at h
      · simp at h
      · rename_i t cache' ht
        obtain ⟨h1, h2, _⟩ := treeRead_sound hS ho hc ht
        have loop : ∀ (l : Tree Id) (s s' : Forest Id × Forest Id), BMap.Sorted s.1 →
            CacheOk C R s.2 → forSubtrees (appendTree C src n (id :: stack)) l s = .ok s' →
            BMap.Sorted s'.1 ∧ CacheOk C R s'.2 ∧
            (∀ x, Sub l x → Grounded (TreeAt C R) x) ∧
            Adds C R (fun k => ∃ x, Sub l x ∧ Reaches (TreeAt C R) x k) s.1 s'.1 := by
          intro l
          induction l with
          | nil =>
            intro s s' hs hc h
            simp only [forSubtrees, Except.ok.injEq] at h
            subst h
            refine ⟨hs, hc, ?_, ?_⟩
            · rintro x ⟨n, md, hm⟩; simp at hm
            · intro k u
              simp [Sub]
          | cons e l ihl =>
            intro s s' hs hc h
            obtain ⟨m, c, md⟩ := e
            have hskip : ∀ c : Contents Id, (∀ x, c ≠ .dir x) →
                forSubtrees (appendTree C src n (id :: stack)) l s = .ok s' →
                BMap.Sorted s'.1 ∧ CacheOk C R s'.2 ∧
                (∀ x, Sub ((m, ⟨c, md⟩) :: l) x → Grounded (TreeAt C R) x) ∧
                Adds C R (fun k => ∃ x, Sub ((m, ⟨c, md⟩) :: l) x ∧ Reaches (TreeAt C R) x k)
                  s.1 s'.1 := by
              intro c hcd h
              have hsub : ∀ x, Sub ((m, ⟨c, md⟩) :: l) x ↔ Sub l x := by
                intro x
                simp only [Sub, List.mem_cons, Prod.mk.injEq, Node.mk.injEq]
                constructor
                · rintro ⟨n, md', ⟨_, h, _⟩ | h⟩
                  · exact absurd h.symm (hcd x)
                  · exact ⟨n, md', h⟩
                · rintro ⟨n, md', h⟩; exact ⟨n, md', .inr h⟩
              simp only [hsub]
              exact ihl s s' hs hc h
            cases c with
            | file cs => exact hskip _ (by simp) h
            | link tg => exact hskip _ (by simp) h
            | dir sub =>
              unfold forSubtrees at h
              split at h
              · simp at h
              · rename_i s1 hs1
                obtain ⟨a1, a2, a3, a4⟩ := ih (id :: stack) sub s s1 hs hc hs1
                obtain ⟨b1, b2, b3, b4⟩ := ihl s1 s' a1 a2 h
                have hsub : ∀ x, Sub ((m, ⟨.dir sub, md⟩) :: l) x ↔ x = sub ∨ Sub l x := by
                  intro x
                  simp only [Sub, List.mem_cons, Prod.mk.injEq, Node.mk.injEq, Contents.dir.injEq]
                  constructor
                  · rintro ⟨n, md', ⟨_, h, _⟩ | h⟩
                    · exact .inl h
                    · exact .inr ⟨n, md', h⟩
                  · rintro (rfl | ⟨n, md', h⟩)
                    · exact ⟨m, md, .inl ⟨rfl, rfl, rfl⟩⟩
                    · exact ⟨n, md', .inr h⟩
                refine ⟨b1, b2, ?_, ?_⟩
                · intro x hx
                  rcases (hsub x).mp hx with rfl | hx
                  · exact a3
                  · exact b3 x hx
                · intro k u
                  rw [b4 k u, a4 k u]
                  have : (∃ x, Sub ((m, ⟨.dir sub, md⟩) :: l) x ∧ Reaches (TreeAt C R) x k) ↔
                      Reaches (TreeAt C R) sub k ∨ ∃ x, Sub l x ∧ Reaches (TreeAt C R) x k := by
                    simp only [hsub]
                    constructor
                    · rintro ⟨x, rfl | hx, hr⟩
                      · exact .inl hr
                      · exact .inr ⟨x, hx, hr⟩
                    · rintro (hr | ⟨x, hx, hr⟩)
                      · exact ⟨sub, .inl rfl, hr⟩
                      · exact ⟨x, .inr hx, hr⟩
                  beta_reduce
                  rw [this]
                  exact add_both _ _ _ _
        obtain ⟨c1, c2, c3, c4⟩ := loop t _ s' (BMap.sorted_insert hf id t) h2 h
        refine ⟨c1, c2, .mk h1 c3, ?_⟩
        intro k u
        rw [c4 k u]
        have hreach : Reaches (TreeAt C R) id k ↔ k = id ∨ ∃ x, Sub t x ∧ Reaches (TreeAt C R) x k := by
          constructor
          · intro hr
            cases hr with
            | refl => exact .inl rfl
            | @step _ t' n sub md _ g1 g2 g3 =>
              rw [hS.treeAt_one g1 h1] at g2
              exact .inr ⟨sub, ⟨n, md, g2⟩, g3⟩
          · rintro (rfl | ⟨x, ⟨n, md, hm⟩, hr⟩)
            · exact .refl
            · exact .step h1 hm hr
        rw [hreach, BMap.get?_insert hf]
        by_cases hk : k = id
        · subst hk
          simp only [true_or, true_and, not_true_eq_false, false_and, or_false, if_true,
            Option.some.injEq]
          constructor
          · rintro (⟨_, h⟩ | ⟨_, h⟩)
            · exact h
            · exact h ▸ h1
          · intro h
            by_cases hx : ∃ x, Sub t x ∧ Reaches (TreeAt C R) x k
            · exact .inl ⟨hx, h⟩
            · exact .inr ⟨hx, hS.treeAt_one h1 h⟩
        · rw [if_neg (fun h => hk h.symm)]
          simp only [hk, false_or]

/-- The forest loaded is exactly what the root reaches, each ID with the tree it stands for,
whatever was cached. -/
theorem forest_exact (hS : Sound C R) (ho : Opens R src) (root : Id) (cache forest cache' : Forest Id)
    (hc : CacheOk C R cache) (h : forestFromRoot C src root cache = .ok (forest, cache'))
    (id : Id) (t : Tree Id) :
    forest.get? id = some t ↔ Reaches (TreeAt C R) root id ∧ TreeAt C R id t := by
  have := (appendTree_sound hS ho _ [] root ([], cache) (forest, cache')
    (by simp [BMap.Sorted, BMap.keys]) hc h).2.2.2 id t
  simpa [BMap.get?] using this

theorem appendTree_complete (hS : Sound C R) (ho : Opens R src) (id : Id)
    (hg : Grounded (TreeAt C R) id) (n : Nat) (stack : List Id)
    (hst : ∀ a ∈ stack, Below (TreeAt C R) a id)
    (s : Forest Id × Forest Id) (hc : CacheOk C R s.2) :
    (∃ s', appendTree C src n stack id s = .ok s' ∧ CacheOk C R s'.2) ∨
      appendTree C src n stack id s = .error overflow := by
  have hone : ∀ id t t', TreeAt C R id t → TreeAt C R id t' → t = t' := fun _ _ _ => hS.treeAt_one
  induction hg generalizing n stack s with
  | @mk id t ht hsub ih =>
    cases n with
    | zero => exact .inr rfl
    | succ n =>
      obtain ⟨forest, cache⟩ := s
      have hno : id ∉ stack := fun hm =>
        (Grounded.mk ht hsub).acyclic hone (hst id hm)
      obtain ⟨cache', h1, h2, _⟩ := treeRead_complete hS ho hc ht
      unfold appendTree
      rw [if_neg hno, h1]
      simp only
      have loop : ∀ (l : Tree Id) (hl : ∀ x, Sub l x → Sub t x) (s : Forest Id × Forest Id),
          CacheOk C R s.2 →
          (∃ s', forSubtrees (appendTree C src n (id :: stack)) l s = .ok s' ∧ CacheOk C R s'.2) ∨
          forSubtrees (appendTree C src n (id :: stack)) l s = .error overflow := by
        intro l
        induction l with
        | nil => exact fun _ s hc => .inl ⟨s, rfl, hc⟩
        | cons e l ihl =>
          intro hl s hc
          obtain ⟨m, c, md⟩ := e
          have hl' : ∀ x, Sub l x → Sub t x := by
            rintro x ⟨n, md', hm⟩
            exact hl x ⟨n, md', List.mem_cons_of_mem _ hm⟩
          cases c with
          | file cs => exact ihl hl' s hc
          | link tg => exact ihl hl' s hc
          | dir sub =>
            have hs : Sub t sub := hl sub ⟨m, md, by simp⟩
            unfold forSubtrees
            rcases ih sub hs n (id :: stack) (by
              intro a ha
              rcases List.mem_cons.mp ha with rfl | ha
              · exact ⟨t, sub, ht, hs, .refl⟩
              · exact (hst a ha).sub ht hs) s hc with ⟨s', hs', hc'⟩ | h
            · rw [hs']; exact ihl hl' s' hc'
            · rw [h]; exact .inr rfl
      exact loop t (fun _ h => h) _ h2

theorem opens_honest (ho : Opens R src) (p : Id) : src.read p ≠ .error overflow := by
  by_cases hp : p ∈ BMap.keys R.packs
  · obtain ⟨bs, hb⟩ := BMap.mem_keys_iff.mp hp
    obtain ⟨s, h, _⟩ := ho.read p bs (BMap.mem_of_get? hb)
    rw [h]; simp
  · obtain ⟨tag, h⟩ := ho.absent p hp
    rw [h]; simp [overflow]

/-- Loading succeeds exactly when every tree reachable from the root is there and none is below
itself. -/
theorem succeeds_iff (hS : Sound C R) (ho : Opens R src) (root : Id)
    (cache : Forest Id) (hc : CacheOk C R cache) :
    (∃ r, forestFromRoot C src root cache = .ok r) ↔
      (∀ id, Reaches (TreeAt C R) root id → ∃ t, TreeAt C R id t) ∧
      (∀ id, Reaches (TreeAt C R) root id → ¬ Below (TreeAt C R) id id) := by
  have hone : ∀ id t t', TreeAt C R id t → TreeAt C R id t' → t = t' := fun _ _ _ => hS.treeAt_one
  constructor
  · rintro ⟨⟨f, c⟩, h⟩
    have hg := (appendTree_sound hS ho _ [] root ([], cache) (f, c)
      (by simp [BMap.Sorted, BMap.keys]) hc h).2.2.1
    refine ⟨fun id hr => ?_, fun id hr => (hg.reach hone hr).acyclic hone⟩
    cases hg.reach hone hr with
    | mk ht _ => exact ⟨_, ht⟩
  · rintro ⟨hex, hcyc⟩
    -- every tree is stored or empty, so there are finitely many; go down until they run out
    have hkeys : ∀ id t, TreeAt C R id t → id ∈ C.emptyId :: BMap.keys src.blobMap := by
      rintro id t ⟨_, he, rfl | hh⟩
      · rw [← he]; simp [Codec.emptyId]
      · obtain ⟨p, _, _, h1, _⟩ := lookup_has hS ho hh
        exact List.mem_cons_of_mem _ (BMap.mem_keys_iff.mpr ⟨p, h1⟩)
    have hg : ∀ n (stack : List Id) id, stack.Nodup →
        (∀ a ∈ stack, a ∈ C.emptyId :: BMap.keys src.blobMap ∧ Below (TreeAt C R) a id) →
        (C.emptyId :: BMap.keys src.blobMap).length ≤ n + stack.length →
        Reaches (TreeAt C R) root id → Grounded (TreeAt C R) id := by
      intro n
      induction n with
      | zero =>
        intro stack id hn hs hl hr
        exfalso
        obtain ⟨t, ht⟩ := hex id hr
        have hno : id ∉ stack := fun hm => hcyc id hr (hs id hm).2
        have := (List.subperm_of_subset (List.nodup_cons.mpr ⟨hno, hn⟩)
          (l₂ := C.emptyId :: BMap.keys src.blobMap) (by
            intro a ha
            rcases List.mem_cons.mp ha with rfl | ha
            · exact hkeys _ t ht
            · exact (hs a ha).1)).length_le
        simp only [List.length_cons] at this hl
        omega
      | succ n ih =>
        intro stack id hn hs hl hr
        obtain ⟨t, ht⟩ := hex id hr
        have hno : id ∉ stack := fun hm => hcyc id hr (hs id hm).2
        refine .mk ht (fun x hx => ih (id :: stack) x (List.nodup_cons.mpr ⟨hno, hn⟩) ?_ ?_ ?_)
        · intro a ha
          rcases List.mem_cons.mp ha with rfl | ha
          · exact ⟨hkeys _ t ht, t, x, ht, hx, .refl⟩
          · exact ⟨(hs a ha).1, (hs a ha).2.sub ht hx⟩
        · simp only [List.length_cons] at hl ⊢; omega
        · obtain ⟨m, md, hm⟩ := hx
          exact hr.trans (.step ht hm .refl)
    rcases appendTree_complete hS ho root
        (hg _ [] root (by simp) (by simp) (by simp; exact le_refl _) .refl)
        (src.blobMap.length + cache.length + 1) [] (by simp) ([], cache) hc with ⟨s', h, _⟩ | h
    · exact ⟨s', h⟩
    · exact absurd h (never_overflows ho.blobMap (opens_honest ho) root cache)

/-- A cycle is refused. -/
theorem cycle_refused (hS : Sound C R) (ho : Opens R src) (root id : Id)
    (cache : Forest Id) (hc : CacheOk C R cache) (hr : Reaches (TreeAt C R) root id)
    (hb : Below (TreeAt C R) id id) : ∃ e, forestFromRoot C src root cache = .error e := by
  cases h : forestFromRoot C src root cache with
  | error e => exact ⟨e, rfl⟩
  | ok r => exact absurd hb (((succeeds_iff hS ho root cache hc).mp ⟨r, h⟩).2 id hr)

/-! ## Examples -/

/-- A directory holding itself, which a hash with collisions would allow. -/
def loopId : ObjectId := ⟨List.replicate 28 1, rfl⟩
/-- See `loopId`. -/
def loopTree : Tree ObjectId :=
  [(ascii "d", ⟨.dir loopId, .posix ⟨0o040755, none, 0, 0, 0, 0⟩⟩)]
/-- A hash sending everything but the empty tree to `loopId`. -/
def loopCodec : Codec ObjectId :=
  Codec.real (fun x => if x = Serde.encTree [] then ⟨List.replicate 28 0, rfl⟩ else loopId)
/-- The pack, index and repository holding it. -/
def loopBlob : Blob ObjectId := ⟨Serde.encTree loopTree, loopId, .tree⟩
/-- See `loopBlob`. -/
def loopRepo : Repo ObjectId :=
  ⟨[(loopId, [loopBlob])], [(loopId, ⟨[], [(loopId, Pack.manifestOf [loopBlob])]⟩)], []⟩

theorem loop_listed (p : ObjectId) (m : Manifest ObjectId) (h : Listed loopRepo.indexes p m) :
    p = loopId ∧ m = Pack.manifestOf [loopBlob] := by
  obtain ⟨i, x, ⟨h1, _⟩, h2⟩ := h
  simp only [loopRepo, List.mem_singleton, Prod.mk.injEq] at h1
  obtain ⟨rfl, rfl⟩ := h1
  simpa using h2

theorem loop_ok : Serde.OkTree loopTree where
  sorted := by simp [BMap.Sorted, BMap.keys, loopTree]
  len := by simp [loopTree]
  names := by simp [loopTree, ascii]
  contents := by simp [loopTree, Serde.OkContents]
  mds := by simp [loopTree, Serde.OkMeta, Serde.InI64]

theorem loop_sound : Sound loopCodec loopRepo := by
  have hne : Serde.encTree loopTree ≠ Serde.encTree [] := by decide +kernel
  have hid : loopCodec.hash (Serde.encTree loopTree) = loopId := by
    simp only [loopCodec, Codec.real, if_neg hne]
  refine ⟨by simp [BMap.Sorted, BMap.keys, loopRepo], by simp [BMap.Sorted, BMap.keys, loopRepo],
    ?_, ?_, ?_, ?_, ?_, ?_, ?_⟩
  · intro p m h
    obtain ⟨rfl, rfl⟩ := loop_listed p m h
    exact ⟨_, by simp [loopRepo], rfl⟩
  · intro p m h
    obtain ⟨rfl, rfl⟩ := loop_listed p m h
    simp [Pack.manifestOf]
  · intro p m p' m' e e' h h' _ _ _
    rw [(loop_listed p m h).1, (loop_listed p' m' h').1]
  · intro p m h
    obtain ⟨rfl, rfl⟩ := loop_listed p m h
    exact ⟨.tree, by simp [Pack.manifestOf, Pack.entryOf, loopBlob]⟩
  · intro p bs b _ h2 h3
    simp only [loopRepo, List.mem_singleton, Prod.mk.injEq] at h2
    obtain ⟨rfl, rfl⟩ := h2
    rw [List.mem_singleton] at h3
    subst h3
    exact hid
  · intro p bs b _ h2 h3 _
    simp only [loopRepo, List.mem_singleton, Prod.mk.injEq] at h2
    obtain ⟨rfl, rfl⟩ := h2
    rw [List.mem_singleton] at h3
    subst h3
    refine ⟨loopTree, loop_ok, rfl, fun h => ?_⟩
    exfalso
    revert h
    simp only [loopBlob, Codec.emptyId, loopCodec, Codec.real, if_true]
    decide
  · intro p bs b _ h2 h3
    simp only [loopRepo, List.mem_singleton, Prod.mk.injEq] at h2
    obtain ⟨rfl, rfl⟩ := h2
    rw [List.mem_singleton] at h3
    subst h3
    exact loopCodec.enc_ne loopTree

/-- A cycle really occurs, and is refused. -/
example : Reaches (TreeAt loopCodec loopRepo) loopId loopId ∧
    Below (TreeAt loopCodec loopRepo) loopId loopId ∧
    ∃ src, Opens loopRepo src ∧
      ∃ e, forestFromRoot loopCodec src loopId (newTreeCache loopCodec) = .error e := by
  have hne : Serde.encTree loopTree ≠ Serde.encTree [] := by decide +kernel
  have hid : loopCodec.hash (Serde.encTree loopTree) = loopId := by
    simp only [loopCodec, Codec.real, if_neg hne]
  have ht : TreeAt loopCodec loopRepo loopId loopTree := by
    refine ⟨loop_ok, hid, .inr ⟨hid, loopId, [loopBlob], ?_, by simp [loopRepo], by
      simp [loopBlob, loopCodec, Codec.real]⟩⟩
    refine ⟨loopId, ⟨[], [(loopId, Pack.manifestOf [loopBlob])]⟩, ⟨by simp [loopRepo], ?_⟩, by
      simp [Pack.manifestOf, Pack.entryOf]⟩
    rintro ⟨j, x, h1, h2⟩
    simp only [loopRepo, List.mem_singleton, Prod.mk.injEq] at h1
    obtain ⟨_, rfl⟩ := h1
    simp at h2
  have hb : Below (TreeAt loopCodec loopRepo) loopId loopId :=
    ⟨loopTree, loopId, ht, ⟨_, _, by simp [loopTree]; exact ⟨rfl, rfl⟩⟩, .refl⟩
  refine ⟨.refl, hb, ?_⟩
  obtain ⟨src, ho⟩ := opens_exists loop_sound
  exact ⟨src, ho, cycle_refused loop_sound ho loopId loopId _ newTreeCache_ok .refl hb⟩

end Backpak.C23
