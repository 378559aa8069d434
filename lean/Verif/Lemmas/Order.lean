import Verif.Spec.Order
import Verif.Model.Common
import Verif.Model.Stats.Basic
import Verif.Base.PyNum
import Verif.Base.Sort
import Verif.Base.Loop
import Mathlib.Data.List.Perm.Basic

/-! Functions of a list that do not depend on its order. -/

namespace Mpsci.order

open Classical Num Spec common

variable {α β : Type} {x y : List Num}

/-- Where the first returns a value the second returns the same. -/
def Imp (a b : M α) : Prop := ∀ v, a = .ok v → b = .ok v

/-- Where the first returns a list the second returns the same list in some order. -/
def ImpL (a b : M (List β)) : Prop := ∀ l, a = .ok l → ∃ l', b = .ok l' ∧ l.Perm l'

theorem Imp.refl (a : M α) : Imp a a := fun _ h => h

theorem Imp.bind {a b : M β} {F G : β → M α} (h : Imp a b) (hF : ∀ u, Imp (F u) (G u)) : Imp (a >>= F) (b >>= G) := by
  intro v hv
  cases a with
  | error e => cases hv
  | ok u => rw [h u rfl]; exact hF u v hv

theorem ImpL.bind {γ : Type} {a b : M (List γ)} {F G : List γ → M α} (h : ImpL a b) (hF : ∀ l l', l.Perm l' → Imp (F l) (G l')) :
    Imp (a >>= F) (b >>= G) := by
  intro v hv
  cases a with
  | error e => cases hv
  | ok u =>
    obtain ⟨l', e, p⟩ := h u rfl
    rw [e]; exact hF u l' p v hv

theorem ImpL.bindL {γ : Type} {a b : M (List γ)} {F G : List γ → M (List β)} (h : ImpL a b) (hF : ∀ l l', l.Perm l' → ImpL (F l) (G l')) :
    ImpL (a >>= F) (b >>= G) := by
  intro v hv
  cases a with
  | error e => cases hv
  | ok u =>
    obtain ⟨l', e, p⟩ := h u rfl
    rw [e]; exact hF u l' p v hv

theorem Imp.bindL {a b : M α} {F G : α → M (List β)} (h : Imp a b) (hF : ∀ u, ImpL (F u) (G u)) : ImpL (a >>= F) (b >>= G) := by
  intro v hv
  cases a with
  | error e => cases hv
  | ok u => rw [h u rfl]; exact hF u v hv

theorem mapM_impL {γ : Type} {x y : List γ} (h : x.Perm y) (g : γ → M β) : ImpL (x.mapM g) (y.mapM g) := by
  induction h with
  | nil => exact fun l hl => ⟨l, hl, .refl l⟩
  | cons a h ih =>
    intro l hl
    rw [List.mapM_cons] at hl ⊢
    cases ha : g a with
    | error e => rw [ha] at hl; cases hl
    | ok u =>
      rw [ha, ok_bind] at hl
      rw [ok_bind]
      rename_i l1 l2
      cases hm : l1.mapM g with
      | error e => rw [hm] at hl; cases hl
      | ok m =>
        rw [hm] at hl
        obtain ⟨m', e, p⟩ := ih m hm
        cases hl
        exact ⟨u :: m', by rw [e]; rfl, p.cons u⟩
  | swap a b l =>
    intro r hr
    simp only [List.mapM_cons] at hr ⊢
    cases ha : g a with
    | error e => cases hb : g b <;> rw [ha, hb] at hr <;> cases hr
    | ok u =>
      cases hb : g b with
      | error e => rw [hb] at hr; cases hr
      | ok w =>
        cases hm : l.mapM g with
        | error e => rw [ha, hb, hm] at hr; cases hr
        | ok m =>
          rw [ha, hb, hm] at hr
          cases hr
          exact ⟨u :: w :: m, rfl, .swap u w m⟩
  | trans _ _ ih1 ih2 =>
    intro l hl
    obtain ⟨l1, e1, p1⟩ := ih1 l hl
    obtain ⟨l2, e2, p2⟩ := ih2 l1 e1
    exact ⟨l2, e2, p1.trans p2⟩

theorem add_left_comm' (a b c : Num) : a + (b + c) = b + (a + c) := by
  show Num.add a (Num.add b c) = Num.add b (Num.add a c)
  cases a <;> cases b <;> cases c <;> (simp [Num.add]; try ring)

theorem fsum_perm (h : x.Perm y) : mp.fsum x = mp.fsum y := by
  induction h with
  | nil => rfl
  | cons a _ ih => simp only [mp.fsum_cons, ih]
  | swap a b l => simp only [mp.fsum_cons]; exact add_left_comm' _ _ _
  | trans _ _ ih1 ih2 => exact ih1.trans ih2

theorem fsum_map_perm {γ : Type} {x y : List γ} (h : x.Perm y) (g : γ → Num) : mp.fsum (x.map g) = mp.fsum (y.map g) := fsum_perm (h.map g)
theorem len_perm (h : x.Perm y) : stats.len x = stats.len y := by simp only [stats.len, h.length_eq]
theorem mean_perm (h : x.Perm y) : stats.mean x = stats.mean y := by simp only [stats.mean, fsum_perm h, len_perm h]
theorem mean_map_perm (h : x.Perm y) (g : Num → Num) : stats.mean (x.map g) = stats.mean (y.map g) := mean_perm (h.map g)
theorem var_perm (h : x.Perm y) (d : Num) : stats.var x d = stats.var y d := by
  simp only [stats.var, fsum_perm h, len_perm h, fsum_map_perm h]
theorem std_perm (h : x.Perm y) (d : Num) : stats.std x d = stats.std y d := by simp only [stats.std, var_perm h]
theorem std_map_perm (h : x.Perm y) (g : Num → Num) (d : Num) : stats.std (x.map g) d = stats.std (y.map g) d := std_perm (h.map g) d

theorem exists_perm {γ : Type} {x y : List γ} (h : x.Perm y) (p : γ → Prop) : (∃ t ∈ x, p t) ↔ ∃ t ∈ y, p t := by simp only [h.mem_iff]
theorem forall_perm {γ : Type} {x y : List γ} (h : x.Perm y) (p : γ → Prop) : (∀ t ∈ x, p t) ↔ ∀ t ∈ y, p t := by simp only [h.mem_iff]

theorem min_fin {x y : List ℝ} (h : x.Perm y) : py.min (x.map fin) = py.min (y.map fin) := by
  cases x with
  | nil => rw [List.nil_perm.1 h]
  | cons a l =>
    cases y with
    | nil => exact absurd h.symm (List.nil_perm.not.2 (by simp))
    | cons b k =>
      obtain ⟨m, m1, m2, m3⟩ := py.foldl_min_fin l a
      obtain ⟨n, n1, n2, n3⟩ := py.foldl_min_fin k b
      have : m = n := le_antisymm (m2 n (h.mem_iff.2 n1)) (n2 m (h.mem_iff.1 m1))
      simp only [List.map_cons, py.min, m3, n3, this]

theorem max_fin {x y : List ℝ} (h : x.Perm y) : py.max (x.map fin) = py.max (y.map fin) := by
  cases x with
  | nil => rw [List.nil_perm.1 h]
  | cons a l =>
    cases y with
    | nil => exact absurd h.symm (List.nil_perm.not.2 (by simp))
    | cons b k =>
      obtain ⟨m, m1, m2, m3⟩ := py.foldl_max_fin l a
      obtain ⟨n, n1, n2, n3⟩ := py.foldl_max_fin k b
      have : m = n := le_antisymm (n2 m (h.mem_iff.1 m1)) (m2 n (h.mem_iff.2 n1))
      simp only [List.map_cons, py.max, m3, n3, this]

theorem sorted_perm {x y : List ℝ} (h : x.Perm y) : py.sorted (x.map fin) = py.sorted (y.map fin) := by
  rw [py.sorted_fin, py.sorted_fin]
  congr 1
  refine List.Perm.eq_of_pairwise' (r := (· ≤ ·)) (List.pairwise_insertionSort _ _) (List.pairwise_insertionSort _ _) ?_
  exact ((List.perm_insertionSort _ _).trans h).trans (List.perm_insertionSort _ _).symm

theorem agree {f : List Num → M α} (h : ∀ x y, x.Perm y → Imp (f x) (f y)) {x y : List Num} (p : x.Perm y) (v : α) :
    f x = .ok v ↔ f y = .ok v := ⟨h x y p v, h y x p.symm v⟩

theorem OrderFree.of {f : List Num → M α} (h : ∀ x y, x.Perm y → Imp (f x) (f y)) : OrderFree f :=
  fun _ _ p => h _ _ (p.map fin)

/-- The check of the data returns the data. -/
theorem bounds_bind (h : x.Perm y) (low high : Option Num) (sl sh : Bool) {F G : List Num → M α} (hF : Imp (F x) (G y)) :
    Imp (validateXBounds x low high sl sh >>= F) (validateXBounds y low high sl sh >>= G) := by
  have e1 : badLow x low sl ↔ badLow y low sl := by
    cases low <;> cases sl <;> simp only [badLow, h.mem_iff]
  have e2 : badHigh x high sh ↔ badHigh y high sh := by
    cases high <;> cases sh <;> simp only [badHigh, h.mem_iff]
  intro v hv
  simp only [validateXBounds, e1, e2] at hv ⊢
  split_ifs at hv ⊢ <;> first | exact hF v hv | cases hv

theorem mapM_pair {γ δ : Type} (g1 : γ → M β) (g2 : γ → M δ) (x : List γ) {l1 : List β} {l2 : List δ} (h1 : x.mapM g1 = .ok l1)
    (h2 : x.mapM g2 = .ok l2) : (x.mapM fun t => do return (← g1 t, ← g2 t)) = .ok (l1.zip l2) := by
  induction x generalizing l1 l2 with
  | nil => cases h1; rfl
  | cons a x ih =>
    rw [List.mapM_cons] at h1 h2 ⊢
    cases e1 : g1 a with
    | error e => rw [e1] at h1; cases h1
    | ok u =>
      cases e2 : g2 a with
      | error e => rw [e2] at h2; cases h2
      | ok w =>
        cases m1 : x.mapM g1 with
        | error e => rw [e1, m1] at h1; cases h1
        | ok k1 =>
          cases m2 : x.mapM g2 with
          | error e => rw [e2, m2] at h2; cases h2
          | ok k2 =>
            rw [e1, m1] at h1; rw [e2, m2] at h2; cases h1; cases h2
            rw [ih m1 m2]
            rfl

/-- Two lists computed from the same data stay paired. -/
theorem mapM_mapM_bind {γ δ : Type} {x y : List γ} (h : x.Perm y) (g1 : γ → M β) (g2 : γ → M δ) {F G : List β → List δ → M α}
    (hF : ∀ l1 l2 k1 k2, l1.Perm k1 → l2.Perm k2 → (l1.zip l2).Perm (k1.zip k2) → Imp (F l1 l2) (G k1 k2)) :
    Imp (x.mapM g1 >>= fun l1 => x.mapM g2 >>= fun l2 => F l1 l2) (y.mapM g1 >>= fun l1 => y.mapM g2 >>= fun l2 => G l1 l2) := by
  intro v hv
  cases m1 : x.mapM g1 with
  | error e => rw [m1] at hv; cases hv
  | ok l1 =>
    cases m2 : x.mapM g2 with
    | error e => rw [m1, m2] at hv; cases hv
    | ok l2 =>
      rw [m1, m2] at hv
      obtain ⟨k1, e1, p1⟩ := mapM_impL h g1 l1 m1
      obtain ⟨k2, e2, p2⟩ := mapM_impL h g2 l2 m2
      obtain ⟨k, e, p⟩ := mapM_impL h _ _ (mapM_pair g1 g2 x m1 m2)
      rw [mapM_pair g1 g2 y e1 e2] at e
      cases e
      rw [e1, e2]
      exact hF l1 l2 k1 k2 p1 p2 p v hv

theorem mapM_pure_id {γ : Type} (x : List γ) : (x.mapM fun t => (.ok t : M γ)) = .ok x := by
  induction x with
  | nil => rfl
  | cons a x ih => rw [List.mapM_cons, ih]; rfl

/-- A list computed from the data stays paired with the data. -/
theorem mapM_zip_bind {γ : Type} {x y : List γ} (h : x.Perm y) (g : γ → M β) {F G : List β → M α}
    (hF : ∀ l k, l.Perm k → (x.zip l).Perm (y.zip k) → Imp (F l) (G k)) : Imp (x.mapM g >>= F) (y.mapM g >>= G) := by
  intro v hv
  cases m1 : x.mapM g with
  | error e => rw [m1] at hv; cases hv
  | ok l =>
    rw [m1] at hv
    obtain ⟨k, e1, p1⟩ := mapM_impL h g l m1
    obtain ⟨k', e, p⟩ := mapM_impL h _ _ (mapM_pair (fun t => .ok t) g x (mapM_pure_id x) m1)
    rw [mapM_pair (fun t => .ok t) g y (mapM_pure_id y) e1] at e
    cases e
    rw [e1]
    exact hF l k p1 p v hv

theorem zipWith_perm {γ δ : Type} {x y : List γ} {l k : List δ} (h : (x.zip l).Perm (y.zip k)) (f : γ → δ → Num) :
    mp.fsum (List.zipWith f x l) = mp.fsum (List.zipWith f y k) := by
  rw [← List.map_uncurry_zip_eq_zipWith, ← List.map_uncurry_zip_eq_zipWith]; exact fsum_perm (h.map _)

theorem zip_swap_perm {γ δ : Type} {x y : List γ} {l k : List δ} (h : (x.zip l).Perm (y.zip k)) : (l.zip x).Perm (k.zip y) := by
  rw [← List.zip_swap x l, ← List.zip_swap y k]; exact h.map _

theorem findroot_imp {γ : Type} {fr : (Num → M β) → γ → M β} (hfr : SeesValues fr) {F G : Num → M β}
    (h1 : ∀ t, Imp (F t) (G t)) (h2 : ∀ t, Imp (G t) (F t)) (s : γ) : Imp (fr F s) (fr G s) :=
  hfr _ _ (fun t v => ⟨h1 t v, h2 t v⟩) s

theorem findrootB_imp {fr : (Num → M β) → Num → Num → M β} (hfr : SeesValues fun F (p : Num × Num) => fr F p.1 p.2)
    {F G : Num → M β} (h1 : ∀ t, Imp (F t) (G t)) (h2 : ∀ t, Imp (G t) (F t)) (s t : Num) : Imp (fr F s t) (fr G s t) :=
  hfr _ _ (fun t v => ⟨h1 t v, h2 t v⟩) (s, t)

theorem findroot2_imp {γ : Type} {fr : (Num → Num → M β) → γ → M β} (hfr : SeesValues2 fr) {F G : Num → Num → M β}
    (h1 : ∀ t u, Imp (F t u) (G t u)) (h2 : ∀ t u, Imp (G t u) (F t u)) (s : γ) : Imp (fr F s) (fr G s) :=
  hfr _ _ (fun t u v => ⟨h1 t u v, h2 t u v⟩) s

theorem findroot3_imp {γ : Type} {fr : (Num → Num → Num → M β) → γ → M β} (hfr : SeesValues3 fr) {F G : Num → Num → Num → M β}
    (h1 : ∀ r t u, Imp (F r t u) (G r t u)) (h2 : ∀ r t u, Imp (G r t u) (F r t u)) (s : γ) : Imp (fr F s) (fr G s) :=
  hfr _ _ (fun r t u v => ⟨h1 r t u v, h2 r t u v⟩) s

theorem loop_imp {σ : Type} {cond : σ → M Prop} {step step' : σ → M σ} (hs : ∀ s, Imp (step s) (step' s)) (n : ℕ) (s : σ) :
    Imp (loop cond step n s) (loop cond step' n s) := by
  induction n generalizing s with
  | zero => exact Imp.refl _
  | succ n ih =>
    simp only [loop]
    refine Imp.bind (Imp.refl _) fun c => ?_
    split
    · exact Imp.bind (hs s) fun u => ih u
    · exact Imp.refl _

/-- For functions that also use the smallest or the largest number or the sorted data. -/
theorem OrderFree.ofSorted {f : List Num → M α} (hf : ∀ x y : List Num, x.Perm y → py.min x = py.min y → py.max x = py.max y →
    py.sorted x = py.sorted y → Imp (f x) (f y)) : OrderFree f :=
  fun x y h v hv => hf _ _ (h.map fin) (min_fin h) (max_fin h) (sorted_perm h) v hv

/-- Rewrites the sums over the data. -/
macro "order_simp" h:term : tactic => `(tactic| try simp only [fsum_perm $h, fsum_map_perm $h, len_perm $h, mean_perm $h, mean_map_perm $h, var_perm $h, std_perm $h, std_map_perm $h, List.Perm.length_eq $h, exists_perm $h, forall_perm $h])

/-- Closes `Imp` goals between two copies of a program that differ in the order `h` of the data. -/
macro "order_step" h:term : tactic => `(tactic| first
  | exact Imp.refl _
  | exact mapM_impL (by first | assumption | exact List.Perm.symm (by assumption)) _
  | (refine bounds_bind $h _ _ _ _ ?_; order_simp $h)
  | (refine ImpL.bind (mapM_impL (by first | assumption | exact List.Perm.symm (by assumption)) _) ?_; intro l l' hl; order_simp hl)
  | (refine ImpL.bindL (mapM_impL (by first | assumption | exact List.Perm.symm (by assumption)) _) ?_; intro l l' hl)
  | (refine Imp.bind (Imp.refl _) ?_; intro u)
  | (refine findroot_imp (by assumption) ?_ ?_ _ <;> intro t)
  | (refine findrootB_imp (by assumption) ?_ ?_ _ _ <;> intro t)
  | (refine findroot2_imp (by assumption) ?_ ?_ _ <;> intro t u)
  | (refine findroot3_imp (by assumption) ?_ ?_ _ <;> intro r t u)
  | (refine loop_imp ?_ _ _; intro s)
  | split
  | (refine Imp.bind ?_ fun u => ?_))

macro "order_free" h:term : tactic => `(tactic| repeat' order_step $h)

end Mpsci.order
