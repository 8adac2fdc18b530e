import Verif.EndToEnd.Run

/-!
# `get`, `set` and `stop`
-/

namespace Verif.EndToEnd

open Verif.System

variable {S V W : Type}

/-- The host, one service and one process model are busy, everybody else waits. -/
def tri (σ : Nat → S) (i p : Nat) (h : HostSt V W) (s : SvcSt V W) (m : MdlSt S V W) : Cfg S V W :=
  ⟨h, upd (fun _ => ⟨.idle, noFlags⟩) i s, upd (fun q => ⟨.idle, σ q⟩) p m⟩

section
variable {y : Sys S V W} {σ : Nat → S} {i p : Nat} {h : HostSt V W} {s : SvcSt V W} {m : MdlSt S V W}

theorem tri_host {h' : HostSt V W} (hv : hostView y h = .tau h') : Go y (tri σ i p h s m) (tri σ i p h' s m) :=
  go_host (c := tri σ i p h s m) hv

theorem tri_svc (hi : i < y.k) {s' : SvcSt V W} (hv : svcView y i s = .tau s') : Go y (tri σ i p h s m) (tri σ i p h s' m) := by
  have := go_svc (c := tri σ i p h s m) hi (s' := s') (by simp [tri, hv])
  simpa [tri, upd_upd] using this

theorem tri_mdl (hp : p < y.n) {m' : MdlSt S V W} (hv : mdlView y p m = .tau m') : Go y (tri σ i p h s m) (tri σ i p h s m') := by
  have := go_mdl (c := tri σ i p h s m) hp (m' := m') (by simp [tri, hv])
  simpa [tri, upd_upd] using this

theorem tri_hs (hi : i < y.k) (hcap : ∀ c, 1 ≤ y.cap c) {h' : HostSt V W} {ch : Nat} {v : Msg V W} {k : Msg V W → SvcSt V W}
    (hs : hostView y h = .send ch v h') (hr : svcView y i s = .recv ch k) {z : SvcSt V W} (hz : k v = z) : Go y (tri σ i p h s m) (tri σ i p h' z m) := by
  subst hz
  have := go_host_svc (c := tri σ i p h s m) hi (hcap ch) (h' := h') (v := v) (k := k) (by simp [tri, hs]) (by simp [tri, hr])
  simpa [tri, upd_upd] using this

theorem tri_sh (hi : i < y.k) (hcap : ∀ c, 1 ≤ y.cap c) {s' : SvcSt V W} {ch : Nat} {v : Msg V W} {k : Msg V W → HostSt V W}
    (hs : svcView y i s = .send ch v s') (hr : hostView y h = .recv ch k) {z : HostSt V W} (hz : k v = z) : Go y (tri σ i p h s m) (tri σ i p z s' m) := by
  subst hz
  have := go_svc_host (c := tri σ i p h s m) hi (hcap ch) (s' := s') (v := v) (k := k) (by simp [tri, hs]) (by simp [tri, hr])
  simpa [tri, upd_upd] using this

theorem tri_sm (hi : i < y.k) (hp : p < y.n) (hcap : ∀ c, 1 ≤ y.cap c) {s' : SvcSt V W} {ch : Nat} {v : Msg V W} {k : Msg V W → MdlSt S V W}
    (hs : svcView y i s = .send ch v s') (hr : mdlView y p m = .recv ch k) {z : MdlSt S V W} (hz : k v = z) : Go y (tri σ i p h s m) (tri σ i p h s' z) := by
  subst hz
  have := go_svc_mdl (c := tri σ i p h s m) hi hp (hcap ch) (s' := s') (v := v) (k := k) (by simp [tri, hs]) (by simp [tri, hr])
  simpa [tri, upd_upd] using this

theorem tri_ms (hi : i < y.k) (hp : p < y.n) (hcap : ∀ c, 1 ≤ y.cap c) {m' : MdlSt S V W} {ch : Nat} {v : Msg V W} {k : Msg V W → SvcSt V W}
    (hs : mdlView y p m = .send ch v m') (hr : svcView y i s = .recv ch k) {z : SvcSt V W} (hz : k v = z) : Go y (tri σ i p h s m) (tri σ i p h z m') := by
  subst hz
  have := go_mdl_svc (c := tri σ i p h s m) hi hp (hcap ch) (m' := m') (v := v) (k := k) (by simp [tri, hs]) (by simp [tri, hr])
  simpa [tri, upd_upd] using this
end

theorem calm_tri (h : HostSt V W) (σ : Nat → S) (i p : Nat) : calm h σ = tri σ i p h ⟨.idle, noFlags⟩ ⟨.idle, σ p⟩ := by
  unfold calm tri
  congr 1
  · funext j; unfold upd; split <;> rfl
  · funext j; unfold upd; split
    · rename_i h; rw [h]
    · rfl

theorem tri_calm (h : HostSt V W) (σ : Nat → S) (i p : Nat) (d : S) :
    tri σ i p h ⟨.idle, noFlags⟩ ⟨.idle, d⟩ = calm h (fun q => if q = p then d else σ q) := by
  unfold calm tri
  congr 1
  · funext j; unfold upd; split <;> rfl
  · funext j; unfold upd; dsimp only; split <;> rfl

/-! ### `get` -/

/-- The service relays items. -/
theorem go_items {y : Sys S V W} (σ : Nat → S) {i p : Nat} (hi : i < y.k) (hp : p < y.n) (hcap : ∀ c, 1 ≤ y.cap c) (cs : List (Call W)) (b : Bool)
    (log : List (Res W)) (d : S) (ws : List W) : ∀ acc, Go y
      (tri σ i p ⟨.getItems i ws.length acc, cs, b, log⟩ ⟨.getItem p ws.length, noFlags⟩ ⟨.sending (ws.map .item), d⟩)
      (tri σ i p ⟨.getItems i 0 (acc ++ ws), cs, b, log⟩ ⟨.getItem p 0, noFlags⟩ ⟨.sending [], d⟩) := by
  induction ws with
  | nil => intro acc; rw [List.append_nil]; exact Go.refl y _
  | cons w ws ih =>
    intro acc
    have e1 : Go y
        (tri σ i p ⟨.getItems i (ws.length + 1) acc, cs, b, log⟩ ⟨.getItem p (ws.length + 1), noFlags⟩ ⟨.sending (.item w :: ws.map .item), d⟩)
        (tri σ i p ⟨.getItems i (ws.length + 1) acc, cs, b, log⟩ ⟨.getRelay p ws.length (.item w), noFlags⟩ ⟨.sending (ws.map .item), d⟩) :=
      tri_ms hi hp hcap (v := .item w) rfl rfl rfl
    have e2 : Go y
        (tri σ i p ⟨.getItems i (ws.length + 1) acc, cs, b, log⟩ ⟨.getRelay p ws.length (.item w), noFlags⟩ ⟨.sending (ws.map .item), d⟩)
        (tri σ i p ⟨.getItems i ws.length (acc ++ [w]), cs, b, log⟩ ⟨.getItem p ws.length, noFlags⟩ ⟨.sending (ws.map .item), d⟩) :=
      tri_sh hi hcap (v := .item w) rfl rfl rfl
    have e3 := ih (acc ++ [w])
    rw [List.append_assoc] at e3
    exact e1.trans (e2.trans e3)

/-- A call of `get`. -/
theorem go_get {y : Sys S V W} {src dst : Nat → Nat} (hw : WF y src dst) {p : Nat} (hp : p < y.n) (x : Nat) (cs : List (Call W))
    (log : List (Res W)) (σ : Nat → S) : Go y (calm ⟨.next, .get p x :: cs, true, log⟩ σ)
      (calm ⟨.next, cs, true, log ++ [.value ((List.range (y.vsize p x)).map (y.peek p (σ p) x))]⟩ σ) := by
  have hi := hw.svc p hp
  have hcap := hw.cap
  have hmem : p ∈ y.pms (y.svc p) := ((hw.pms _).2 p).2 ⟨hp, rfl⟩
  generalize hsi : y.svc p = i at hi hmem
  rw [calm_tri _ σ i p]
  let ws := (List.range (y.vsize p x)).map (y.peek p (σ p) x)
  have hws : (List.range (y.vsize p x)).map (fun j => (Msg.item (y.peek p (σ p) x j) : Msg V W)) = ws.map .item := by
    simp [ws]
  have hlen : ws.length = y.vsize p x := by simp [ws]
  have e1 : Go y (tri σ i p ⟨.next, .get p x :: cs, true, log⟩ ⟨.idle, noFlags⟩ ⟨.idle, σ p⟩)
      (tri σ i p ⟨.getSend i [.getCmd, .num p, .num x], cs, true, log⟩ ⟨.idle, noFlags⟩ ⟨.idle, σ p⟩) :=
    tri_host (by simp [hostView, hsi])
  have e2 : Go y (tri σ i p ⟨.getSend i [.getCmd, .num p, .num x], cs, true, log⟩ ⟨.idle, noFlags⟩ ⟨.idle, σ p⟩)
      (tri σ i p ⟨.getSend i [.num p, .num x], cs, true, log⟩ ⟨.getP, noFlags⟩ ⟨.idle, σ p⟩) := tri_hs hi hcap (v := .getCmd) rfl rfl rfl
  have e3 : Go y (tri σ i p ⟨.getSend i [.num p, .num x], cs, true, log⟩ ⟨.getP, noFlags⟩ ⟨.idle, σ p⟩)
      (tri σ i p ⟨.getSend i [.num x], cs, true, log⟩ ⟨.getX p, noFlags⟩ ⟨.idle, σ p⟩) := by
    have := tri_hs (y := y) (σ := σ) (p := p) (m := ⟨.idle, σ p⟩) (h := ⟨.getSend i [.num p, .num x], cs, true, log⟩) (s := ⟨.getP, noFlags⟩) hi hcap
      (v := .num p) rfl rfl rfl
    simpa [hmem] using this
  have e4 : Go y (tri σ i p ⟨.getSend i [.num x], cs, true, log⟩ ⟨.getX p, noFlags⟩ ⟨.idle, σ p⟩)
      (tri σ i p ⟨.getSend i [], cs, true, log⟩ ⟨.getReq p [.getCmd, .num x], noFlags⟩ ⟨.idle, σ p⟩) := tri_hs hi hcap (v := .num x) rfl rfl rfl
  have e5 : Go y (tri σ i p ⟨.getSend i [], cs, true, log⟩ ⟨.getReq p [.getCmd, .num x], noFlags⟩ ⟨.idle, σ p⟩)
      (tri σ i p ⟨.getNum i, cs, true, log⟩ ⟨.getReq p [.getCmd, .num x], noFlags⟩ ⟨.idle, σ p⟩) := tri_host rfl
  have e6 : Go y (tri σ i p ⟨.getNum i, cs, true, log⟩ ⟨.getReq p [.getCmd, .num x], noFlags⟩ ⟨.idle, σ p⟩)
      (tri σ i p ⟨.getNum i, cs, true, log⟩ ⟨.getReq p [.num x], noFlags⟩ ⟨.getX, σ p⟩) := tri_sm hi hp hcap (v := .getCmd) rfl rfl rfl
  have e7 : Go y (tri σ i p ⟨.getNum i, cs, true, log⟩ ⟨.getReq p [.num x], noFlags⟩ ⟨.getX, σ p⟩)
      (tri σ i p ⟨.getNum i, cs, true, log⟩ ⟨.getReq p [], noFlags⟩ ⟨.sending (.num (y.vsize p x) :: ws.map .item), σ p⟩) := by
    rw [← hws]
    exact tri_sm hi hp hcap (v := .num x) rfl rfl rfl
  have e8 : Go y (tri σ i p ⟨.getNum i, cs, true, log⟩ ⟨.getReq p [], noFlags⟩ ⟨.sending (.num (y.vsize p x) :: ws.map .item), σ p⟩)
      (tri σ i p ⟨.getNum i, cs, true, log⟩ ⟨.getNum p, noFlags⟩ ⟨.sending (.num (y.vsize p x) :: ws.map .item), σ p⟩) := tri_svc hi rfl
  have e9 : Go y (tri σ i p ⟨.getNum i, cs, true, log⟩ ⟨.getNum p, noFlags⟩ ⟨.sending (.num (y.vsize p x) :: ws.map .item), σ p⟩)
      (tri σ i p ⟨.getNum i, cs, true, log⟩ ⟨.getNumRelay p (y.vsize p x), noFlags⟩ ⟨.sending (ws.map .item), σ p⟩) :=
    tri_ms hi hp hcap (v := .num (y.vsize p x)) rfl rfl rfl
  have e10 : Go y (tri σ i p ⟨.getNum i, cs, true, log⟩ ⟨.getNumRelay p (y.vsize p x), noFlags⟩ ⟨.sending (ws.map .item), σ p⟩)
      (tri σ i p ⟨.getItems i (y.vsize p x) [], cs, true, log⟩ ⟨.getItem p (y.vsize p x), noFlags⟩ ⟨.sending (ws.map .item), σ p⟩) :=
    tri_sh hi hcap (v := .num (y.vsize p x)) rfl rfl rfl
  have e11 := go_items σ hi hp hcap cs true log (σ p) ws []
  rw [hlen, List.nil_append] at e11
  have e12 : Go y (tri σ i p ⟨.getItems i 0 ws, cs, true, log⟩ ⟨.getItem p 0, noFlags⟩ ⟨.sending [], σ p⟩)
      (tri σ i p ⟨.getItems i 0 ws, cs, true, log⟩ ⟨.idle, noFlags⟩ ⟨.sending [], σ p⟩) := tri_svc hi rfl
  have e13 : Go y (tri σ i p ⟨.getItems i 0 ws, cs, true, log⟩ ⟨.idle, noFlags⟩ ⟨.sending [], σ p⟩)
      (tri σ i p ⟨.getItems i 0 ws, cs, true, log⟩ ⟨.idle, noFlags⟩ ⟨.idle, σ p⟩) := tri_mdl hp rfl
  have e14 : Go y (tri σ i p ⟨.getItems i 0 ws, cs, true, log⟩ ⟨.idle, noFlags⟩ ⟨.idle, σ p⟩)
      (tri σ i p ⟨.next, cs, true, log ++ [.value ws]⟩ ⟨.idle, noFlags⟩ ⟨.idle, σ p⟩) := tri_host rfl
  rw [calm_tri _ σ i p]
  exact e1.trans (e2.trans (e3.trans (e4.trans (e5.trans (e6.trans (e7.trans (e8.trans (e9.trans (e10.trans (e11.trans
    (e12.trans (e13.trans e14))))))))))))

/-! ### `set` -/

theorem go_setItems {y : Sys S V W} (σ : Nat → S) {i p : Nat} (hi : i < y.k) (hp : p < y.n) (hcap : ∀ c, 1 ≤ y.cap c) (cs : List (Call W)) (b : Bool)
    (log : List (Res W)) (x : Nat) (ws : List W) : ∀ (j : Nat) (d : S), j + ws.length ≤ y.vsize p x → Go y
      (tri σ i p ⟨.setSend i (ws.map .item), cs, b, log⟩ ⟨.setItem p ws.length, noFlags⟩ ⟨.setItems x j ws.length, d⟩)
      (tri σ i p ⟨.setSend i [], cs, b, log⟩ ⟨.setItem p 0, noFlags⟩ ⟨.setItems x (j + ws.length) 0, pokes y p x j ws d⟩) := by
  induction ws with
  | nil => intro j d _; exact Go.refl y _
  | cons w ws ih =>
    intro j d hj
    simp only [List.length_cons] at hj
    have e1 : Go y
        (tri σ i p ⟨.setSend i (.item w :: ws.map .item), cs, b, log⟩ ⟨.setItem p (ws.length + 1), noFlags⟩ ⟨.setItems x j (ws.length + 1), d⟩)
        (tri σ i p ⟨.setSend i (ws.map .item), cs, b, log⟩ ⟨.setRelay p ws.length (.item w), noFlags⟩ ⟨.setItems x j (ws.length + 1), d⟩) :=
      tri_hs hi hcap (v := .item w) rfl rfl rfl
    have e2 : Go y
        (tri σ i p ⟨.setSend i (ws.map .item), cs, b, log⟩ ⟨.setRelay p ws.length (.item w), noFlags⟩ ⟨.setItems x j (ws.length + 1), d⟩)
        (tri σ i p ⟨.setSend i (ws.map .item), cs, b, log⟩ ⟨.setItem p ws.length, noFlags⟩ ⟨.setItems x (j + 1) ws.length, y.poke p d x j w⟩) := by
      refine tri_sm hi hp hcap (v := .item w) (k := fun m =>
        match m with
        | .item w => ⟨.setItems x (j + 1) (ws.length + 1 - 1), y.poke p d x j w⟩
        | _ => ⟨.failed, d⟩) rfl ?_ rfl
      simp only [mdlView]
      rw [if_pos ⟨by omega, by omega⟩]
      rfl
    have e3 := ih (j + 1) (y.poke p d x j w) (by omega)
    have : j + 1 + ws.length = j + (w :: ws).length := by simp; omega
    rw [this] at e3
    exact e1.trans (e2.trans e3)

/-- A call of `set`. -/
theorem go_set {y : Sys S V W} {src dst : Nat → Nat} (hw : WF y src dst) {p : Nat} (hp : p < y.n) (x : Nat) (ws : List W)
    (hlen : ws.length ≤ y.vsize p x) (cs : List (Call W)) (log : List (Res W)) (σ : Nat → S) :
    Go y (calm ⟨.next, .set p x ws :: cs, true, log⟩ σ)
      (calm ⟨.next, cs, true, log ++ [.wasSet]⟩ (fun q => if q = p then y.updated p (pokes y p x 0 ws (σ p)) else σ q)) := by
  have hi := hw.svc p hp
  have hcap := hw.cap
  have hmem : p ∈ y.pms (y.svc p) := ((hw.pms _).2 p).2 ⟨hp, rfl⟩
  generalize hsi : y.svc p = i at hi hmem
  rw [calm_tri _ σ i p]
  have e1 : Go y (tri σ i p ⟨.next, .set p x ws :: cs, true, log⟩ ⟨.idle, noFlags⟩ ⟨.idle, σ p⟩)
      (tri σ i p ⟨.setSend i (.setCmd :: .num p :: .num x :: .num ws.length :: ws.map .item), cs, true, log⟩ ⟨.idle, noFlags⟩ ⟨.idle, σ p⟩) :=
    tri_host (by simp [hostView, hsi])
  have e2 : Go y (tri σ i p ⟨.setSend i (.setCmd :: .num p :: .num x :: .num ws.length :: ws.map .item), cs, true, log⟩ ⟨.idle, noFlags⟩ ⟨.idle, σ p⟩)
      (tri σ i p ⟨.setSend i (.num p :: .num x :: .num ws.length :: ws.map .item), cs, true, log⟩ ⟨.setP, noFlags⟩ ⟨.idle, σ p⟩) :=
    tri_hs hi hcap (v := .setCmd) rfl rfl rfl
  have e3 : Go y (tri σ i p ⟨.setSend i (.num p :: .num x :: .num ws.length :: ws.map .item), cs, true, log⟩ ⟨.setP, noFlags⟩ ⟨.idle, σ p⟩)
      (tri σ i p ⟨.setSend i (.num x :: .num ws.length :: ws.map .item), cs, true, log⟩ ⟨.setX p, noFlags⟩ ⟨.idle, σ p⟩) := by
    have := tri_hs (y := y) (σ := σ) (p := p) (m := ⟨.idle, σ p⟩)
      (h := ⟨.setSend i (.num p :: .num x :: .num ws.length :: ws.map .item), cs, true, log⟩) (s := ⟨.setP, noFlags⟩) hi hcap
      (v := .num p) rfl rfl rfl
    simpa [hmem] using this
  have e4 : Go y (tri σ i p ⟨.setSend i (.num x :: .num ws.length :: ws.map .item), cs, true, log⟩ ⟨.setX p, noFlags⟩ ⟨.idle, σ p⟩)
      (tri σ i p ⟨.setSend i (.num ws.length :: ws.map .item), cs, true, log⟩ ⟨.setReq p [.setCmd, .num x], noFlags⟩ ⟨.idle, σ p⟩) :=
    tri_hs hi hcap (v := .num x) rfl rfl rfl
  have e5 : Go y (tri σ i p ⟨.setSend i (.num ws.length :: ws.map .item), cs, true, log⟩ ⟨.setReq p [.setCmd, .num x], noFlags⟩ ⟨.idle, σ p⟩)
      (tri σ i p ⟨.setSend i (.num ws.length :: ws.map .item), cs, true, log⟩ ⟨.setReq p [.num x], noFlags⟩ ⟨.setX, σ p⟩) :=
    tri_sm hi hp hcap (v := .setCmd) rfl rfl rfl
  have e6 : Go y (tri σ i p ⟨.setSend i (.num ws.length :: ws.map .item), cs, true, log⟩ ⟨.setReq p [.num x], noFlags⟩ ⟨.setX, σ p⟩)
      (tri σ i p ⟨.setSend i (.num ws.length :: ws.map .item), cs, true, log⟩ ⟨.setReq p [], noFlags⟩ ⟨.setNum x, σ p⟩) :=
    tri_sm hi hp hcap (v := .num x) rfl rfl rfl
  have e7 : Go y (tri σ i p ⟨.setSend i (.num ws.length :: ws.map .item), cs, true, log⟩ ⟨.setReq p [], noFlags⟩ ⟨.setNum x, σ p⟩)
      (tri σ i p ⟨.setSend i (.num ws.length :: ws.map .item), cs, true, log⟩ ⟨.setNum p, noFlags⟩ ⟨.setNum x, σ p⟩) := tri_svc hi rfl
  have e8 : Go y (tri σ i p ⟨.setSend i (.num ws.length :: ws.map .item), cs, true, log⟩ ⟨.setNum p, noFlags⟩ ⟨.setNum x, σ p⟩)
      (tri σ i p ⟨.setSend i (ws.map .item), cs, true, log⟩ ⟨.setNumRelay p ws.length, noFlags⟩ ⟨.setNum x, σ p⟩) :=
    tri_hs hi hcap (v := .num ws.length) rfl rfl rfl
  have e9 : Go y (tri σ i p ⟨.setSend i (ws.map .item), cs, true, log⟩ ⟨.setNumRelay p ws.length, noFlags⟩ ⟨.setNum x, σ p⟩)
      (tri σ i p ⟨.setSend i (ws.map .item), cs, true, log⟩ ⟨.setItem p ws.length, noFlags⟩ ⟨.setItems x 0 ws.length, σ p⟩) :=
    tri_sm hi hp hcap (v := .num ws.length) rfl rfl rfl
  have e10 := go_setItems σ hi hp hcap cs true log x ws 0 (σ p) (by omega)
  have e11 : Go y (tri σ i p ⟨.setSend i [], cs, true, log⟩ ⟨.setItem p 0, noFlags⟩ ⟨.setItems x (0 + ws.length) 0, pokes y p x 0 ws (σ p)⟩)
      (tri σ i p ⟨.setSend i [], cs, true, log⟩ ⟨.setRsp p, noFlags⟩ ⟨.setItems x (0 + ws.length) 0, pokes y p x 0 ws (σ p)⟩) := tri_svc hi rfl
  have e12 : Go y (tri σ i p ⟨.setSend i [], cs, true, log⟩ ⟨.setRsp p, noFlags⟩ ⟨.setItems x (0 + ws.length) 0, pokes y p x 0 ws (σ p)⟩)
      (tri σ i p ⟨.setSend i [], cs, true, log⟩ ⟨.setRspRelay .setComplete, noFlags⟩ ⟨.updating, pokes y p x 0 ws (σ p)⟩) := by
    refine tri_ms hi hp hcap (v := .setComplete) (m' := ⟨.updating, pokes y p x 0 ws (σ p)⟩) (ch := rspCh p) ?_ rfl rfl
    simp [mdlView]
  have e13 : Go y (tri σ i p ⟨.setSend i [], cs, true, log⟩ ⟨.setRspRelay .setComplete, noFlags⟩ ⟨.updating, pokes y p x 0 ws (σ p)⟩)
      (tri σ i p ⟨.setSend i [], cs, true, log⟩ ⟨.setRspRelay .setComplete, noFlags⟩ ⟨.idle, y.updated p (pokes y p x 0 ws (σ p))⟩) :=
    tri_mdl hp rfl
  have e14 : Go y (tri σ i p ⟨.setSend i [], cs, true, log⟩ ⟨.setRspRelay .setComplete, noFlags⟩ ⟨.idle, y.updated p (pokes y p x 0 ws (σ p))⟩)
      (tri σ i p ⟨.setWait i, cs, true, log⟩ ⟨.setRspRelay .setComplete, noFlags⟩ ⟨.idle, y.updated p (pokes y p x 0 ws (σ p))⟩) := tri_host rfl
  have e15 : Go y (tri σ i p ⟨.setWait i, cs, true, log⟩ ⟨.setRspRelay .setComplete, noFlags⟩ ⟨.idle, y.updated p (pokes y p x 0 ws (σ p))⟩)
      (tri σ i p ⟨.next, cs, true, log ++ [.wasSet]⟩ ⟨.idle, noFlags⟩ ⟨.idle, y.updated p (pokes y p x 0 ws (σ p))⟩) :=
    tri_sh hi hcap (v := .setComplete) rfl rfl rfl
  rw [tri_calm] at e15
  exact e1.trans (e2.trans (e3.trans (e4.trans (e5.trans (e6.trans (e7.trans (e8.trans (e9.trans (e10.trans (e11.trans
    (e12.trans (e13.trans (e14.trans e15)))))))))))))

/-! ### `stop` -/

/-- Everything has ended. -/
def ended (y : Sys S V W) (log : List (Res W)) (σ : Nat → S) : Cfg S V W :=
  ⟨⟨.finished, [], true, log⟩, fun i => if i < y.k then ⟨.dead, noFlags⟩ else ⟨.idle, noFlags⟩,
    fun p => if p < y.n then ⟨.dead, σ p⟩ else ⟨.idle, σ p⟩⟩

theorem go_stop {y : Sys S V W} {src dst : Nat → Nat} (hw : WF y src dst) (log : List (Res W)) (σ : Nat → S) :
    Go y (calm ⟨.next, [], true, log⟩ σ) (ended y (log ++ [.stopped]) σ) := by
  have e1 : Go y (calm ⟨.next, [], true, log⟩ σ) (calm ⟨.stopSend (List.range y.k), [], true, log⟩ σ) := go_host (by rfl)
  have e2 := go_host_all (y := y) (fun l => ⟨.stopSend l, [], true, log⟩) (fun _ => ⟨.idle, noFlags⟩) (fun i => ⟨.stopSend (y.pms i), noFlags⟩) (by
    intro i rest hi c hh hs
    exact go_host_svc (y := y) (c := c) hi (hw.cap (toSvc i)) (v := .stopCmd) (h' := ⟨.stopSend rest, [], true, log⟩)
      (by rw [hh]; rfl) (by rw [hs]; rfl)) (calm ⟨.stopSend (List.range y.k), [], true, log⟩ σ) rfl (fun i _ => rfl)
  have e3 : Go y (⟨⟨.stopSend [], [], true, log⟩, fun i => if i < y.k then ⟨.stopSend (y.pms i), noFlags⟩ else ⟨.idle, noFlags⟩,
        fun p => ⟨.idle, σ p⟩⟩ : Cfg S V W)
      ⟨⟨.stopWait (List.range y.k), [], true, log⟩, fun i => if i < y.k then ⟨.stopSend (y.pms i), noFlags⟩ else ⟨.idle, noFlags⟩,
        fun p => ⟨.idle, σ p⟩⟩ := go_host (by rfl)
  have e4 := go_services hw (⟨.stopWait (List.range y.k), [], true, log⟩ : HostSt V W) (fun i => ⟨.stopSend (y.pms i), noFlags⟩)
    (fun _ => ⟨.stopDone, noFlags⟩) (fun p => ⟨.idle, σ p⟩) (fun p => ⟨.dead, σ p⟩) (by
      intro i hi c _ hs hm
      have g1 := go_models (y := y) hi (F := Unit) (fun l _ => ⟨.stopSend l, noFlags⟩) (fun _ _ => ())
        (fun p => ⟨.idle, σ p⟩) (fun p => ⟨.stopping, σ p⟩) (by
          intro p rest _ hp c hs hm
          have hpn := (((hw.pms i).2 p).1 hp).1
          exact go_svc_mdl (y := y) (c := c) (i := i) (p := p) hi hpn (hw.cap (cmdCh p)) (v := .stopCmd)
            (s' := ⟨.stopSend rest, noFlags⟩) (by rw [hs]; rfl) (by rw [hm]; rfl))
        (y.pms i) (hw.pms i).1 (fun p hp => hp) () c hs hm
      have g2 := go_svc (y := y) (c := ⟨c.h, upd c.sv i ⟨.stopSend [], noFlags⟩, fun p => if p ∈ y.pms i then ⟨.stopping, σ p⟩ else c.md p⟩)
        hi (s' := ⟨.stopWait (y.pms i), noFlags⟩) (by simp [svcView])
      have g3 := go_models (y := y) hi (F := Unit) (fun l _ => ⟨.stopWait l, noFlags⟩) (fun _ _ => ())
        (fun p => ⟨.stopping, σ p⟩) (fun p => ⟨.dead, σ p⟩) (by
          intro p rest _ hp c hs hm
          have hpn := (((hw.pms i).2 p).1 hp).1
          exact go_mdl_svc (y := y) (c := c) (i := i) (p := p) hi hpn (hw.cap (rspCh p)) (v := .terminated)
            (m' := ⟨.dead, σ p⟩) (by rw [hm]; rfl) (by rw [hs]; rfl))
        (y.pms i) (hw.pms i).1 (fun p hp => hp) ()
        ⟨c.h, upd c.sv i ⟨.stopWait (y.pms i), noFlags⟩, fun p => if p ∈ y.pms i then ⟨.stopping, σ p⟩ else c.md p⟩ (by simp) (by
          intro p hp
          dsimp only
          rw [if_pos hp])
      have g4 := go_svc (y := y) (c := c.put y i ⟨.stopWait [], noFlags⟩ (fun p => ⟨.dead, σ p⟩))
        hi (s' := ⟨.stopDone, noFlags⟩) (by rw [put_sv]; rfl)
      refine g1.trans (g2.trans ((Go.of_eq ?_).trans (g3.trans ((Go.of_eq ?_).trans (g4.trans (Go.of_eq ?_))))))
      · simp [upd_upd]
      · simp only [Cfg.put, upd_upd, Cfg.mk.injEq, true_and]
        funext p
        by_cases hp : p ∈ y.pms i
        · rw [if_pos hp, if_pos hp]
        · rw [if_neg hp, if_neg hp, if_neg hp]
      · simp [Cfg.put, upd_upd])
    ⟨⟨.stopWait (List.range y.k), [], true, log⟩, fun i => if i < y.k then ⟨.stopSend (y.pms i), noFlags⟩ else ⟨.idle, noFlags⟩,
        fun p => ⟨.idle, σ p⟩⟩ rfl (by intro i hi; dsimp only; rw [if_pos hi]) (fun p _ => rfl)
  have e5 := go_host_all (y := y) (fun l => ⟨.stopWait l, [], true, log⟩) (fun _ => ⟨.stopDone, noFlags⟩) (fun _ => ⟨.dead, noFlags⟩) (by
    intro i rest hi c hh hs
    exact go_svc_host (y := y) (c := c) hi (hw.cap (fromSvc i)) (v := .terminated) (s' := ⟨.dead, noFlags⟩)
      (by rw [hs]; rfl) (by rw [hh]; rfl)) ⟨⟨.stopWait (List.range y.k), [], true, log⟩,
        fun i => if i < y.k then ⟨.stopDone, noFlags⟩ else if i < y.k then ⟨.stopSend (y.pms i), noFlags⟩ else ⟨.idle, noFlags⟩,
        fun p => if p < y.n then ⟨.dead, σ p⟩ else ⟨.idle, σ p⟩⟩ rfl (by intro i hi; simp [hi])
  have e6 : Go y (⟨⟨.stopWait [], [], true, log⟩, fun i => if i < y.k then ⟨.dead, noFlags⟩ else ⟨.idle, noFlags⟩,
    fun p => if p < y.n then ⟨.dead, σ p⟩ else ⟨.idle, σ p⟩⟩ : Cfg S V W) (ended y (log ++ [.stopped]) σ) := go_host (by rfl)
  refine e1.trans (e2.trans (e3.trans (e4.trans (e5.trans ((Go.of_eq ?_).trans e6)))))
  congr 1
  funext i
  dsimp only
  split <;> rfl

end Verif.EndToEnd
