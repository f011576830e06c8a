import Verif.Model.CallStorage
/-!
What is to be recorded for a call, in terms of the call itself.
-/
namespace Verif

/-- All rows of a call, inputs first. -/
def CallRec.rows (c : CallRec) : List Row := c.inputs.map c.inRow ++ c.outputs.map c.outRow

/-- Names of inputs and outputs are all different. -/
def CallRec.NamesDistinct (c : CallRec) : Prop := (Dict.keys c.inputs ++ Dict.keys c.outputs).Nodup

instance (c : CallRec) : Decidable c.NamesDistinct := inferInstanceAs (Decidable (List.Nodup _))

/-- The data of a call as the caller knows it. -/
def CallRec.data (c : CallRec) : CallData :=
  { opName := c.op, cid := c.cid, hid := c.hid,
    inputHids := c.inputs.map (fun p => (p.1, p.2.hid)), outputHids := c.outputs.map (fun p => (p.1, p.2.hid)),
    inputCids := c.inputs.map (fun p => (p.1, p.2.cid)), outputCids := c.outputs.map (fun p => (p.1, p.2.cid)),
    semVer := c.semVer, contVer := c.contVer }

end Verif
