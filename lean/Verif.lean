import Verif.Imm.Props
import Verif.Fx.Props
import Verif.Num.Props
import Verif.Names.Props
import Verif.Str.Props
import Verif.Cmp.Props
import Verif.Width.Props
import Verif.Vecs.Props
import Verif.Arity.Props
import Verif.Sets.Props
import Verif.Lists.Props
import Verif.Symt.Props
import Verif.Wind.Props
import Verif.Promise.Props
import Verif.Cbuf.Props
import Verif.Regs.Props
import Verif.App.Props
import Verif.Gc.Props
import Verif.Equal.Props
import Verif.Stab.Circular
import Verif.Stab.Props
import Verif.Lit.Props
import Verif.Lit.Cleanup
import Verif.Moves.Props
import Verif.Interp.Props
import Verif.Core.Free
import Verif.Lift.Props
import Verif.Cps.Props
import Verif.Boxes.Props
import Verif.Core.Agree
import Verif.Reader.Here
import Verif.Reader.Tokens
import Verif.Reader.Numbers
import Verif.Reader.RoundTrip
import Verif.Reader.Dotted
import Verif.Macros.Props
import Verif.Beta.Props
import Verif.Fold.Props
import Verif.Letrec.Props
import Verif.Lift.Meaning
import Verif.Cgen.Props
import Verif.Reader.Strings
import Verif.Copy.Props
import Verif.Nary.Props
import Verif.Stackfn.Props
import Verif.Expand.Props
import Verif.Expand.DirectProps
import Verif.Parse.Props
import Verif.Labels.Props
import Verif.Unbox.Props
import Verif.Fmt.Props
import Verif.Globals.Props
import Verif.Exc.Props
import Verif.Modules.Props
import Verif.Derived.Props
import Verif.Quasi.Props
import Verif.Records.Props
import Verif.Ports.Props
import Verif.NumText.Props
import Verif.ListHeap.Props
import Verif.Front.Props
import Verif.StrMem.Props
import Verif.Tower.Props
import Verif.PortLife.Props
import Verif.TypeTests.Props
import Verif.Chars.Props
import Verif.ByteVec.Props
import Verif.Driver.Props
import Verif.Process.Props
import Verif.IntLit.Props
import Verif.DecLit.Props
