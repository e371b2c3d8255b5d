import sys,re
# usage: addst.py PROVED|PARTIAL Cnn "note"
f='/verif/tools/status.py'
s=open(f).read()
kind,c,note=sys.argv[1:4]
s=re.sub(r'^"%s":.*\n'%c,'',s,flags=re.M)
s=s.replace(kind+"={\n",kind+'={\n"%s":"%s",\n'%(c,note),1)
open(f,'w').write(s)
